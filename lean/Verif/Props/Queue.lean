import Verif.Proofs.QueueUse
/-
The queue without power loss: C01, C02, C03, C06, C31, C32, C37, C40, C41, C42.
-/

namespace SeqStorage.Props
open M Spec

variable {K : Type} [DecidableEq K] {g : Geo} {s : St K}

/-- C01. Every sequence of calls on a fresh region answers like a list of byte strings. -/
theorem queue_is_fifo (w : g.WF) (h : Start g s) (cs : List (QCall (Cache K))) (hd : ∀ c ∈ cs, Documented g c) :
    ∃ q, Runs (queueStep g.word g.eraseSize g.pageCount) [] cs (qrun g cs s).1 q ∧ Contents g (qrun g cs s).2 q := by
  obtain ⟨σ, P, _, h1, h2⟩ := qrun_det w (md := ⟨true, false, none, fun _ => True, false⟩) rfl cs (h.qi w) hd (by simp)
  exact ⟨_, h2, h1.contents w⟩

example : ∃ q, Runs (queueStep 4 32 2) [] calls2 (qrun geo2 calls2 freshSt).1 q ∧ Contents geo2 st2 q :=
  queue_is_fifo geo2_wf (fresh_start _) calls2 (by
    intro c hc
    simp only [calls2, List.mem_cons, List.not_mem_nil, or_false] at hc
    rcases hc with rfl | rfl | rfl <;> trivial)

example : (qrun geo2 (calls2 ++ [.pop buf32, .peek buf32, .push [1#8] false]) freshSt).1 =
    [.ok .done, .ok .done, .ok .done, .ok (.item (some [1#8, 2#8, 3#8])), .ok (.item (some [4#8])),
      .error .fullStorage] := by decide +kernel

/-- C02. A refused push changes nothing, and when it is refused. -/
theorem refused_push_changes_nothing (w : g.WF) (h : Reached g s) (d : List Byte) (overwrite : Bool) (e : Err)
    (he : (qcall g (.push d overwrite) s).1 = .error e) :
    (∃ q, Contents g s q ∧ Contents g (qcall g (.push d overwrite) s).2 q) ∧
    ((e = .fullStorage ∧ overwrite = false ∧ FitsPage g.word g.eraseSize d) ∨
      (e = .itemTooBig ∧ ¬ FitsPage g.word g.eraseSize d)) := by
  obtain ⟨σ, P, h⟩ := h.qi w
  obtain ⟨σ', P', h1, _, h3⟩ := qcall_det w (md := ⟨true, false, none, fun _ => True, false⟩) rfl h (.push d overwrite) trivial (by simp)
  simp only [queueStep, he] at h3
  rcases h3 with ⟨h4, h5, h6⟩ | ⟨h4, h5, h6, h7, _⟩ | ⟨_, h5, _⟩
  · exact ⟨⟨_, h.contents w, h6 ▸ h1.contents w⟩, Or.inr ⟨by simpa using h5, h4⟩⟩
  · exact ⟨⟨_, h.contents w, h7 ▸ h1.contents w⟩, Or.inl ⟨by simpa using h6, h5, h4⟩⟩
  · simp at h5

example : (qcall geo2 (.push [1#8] false) st2).1 = .error .fullStorage := by decide +kernel

example : ∃ q, Contents geo2 st2 q ∧ Contents geo2 (qcall geo2 (.push [1#8] false) st2).2 q :=
  (refused_push_changes_nothing geo2_wf st2_reached [1#8] false .fullStorage (by decide +kernel)).1

/-- C02. Data that does not fit a page is always refused. -/
theorem too_big_is_refused (w : g.WF) (h : Reached g s) (d : List Byte) (overwrite : Bool)
    (hd : ¬ FitsPage g.word g.eraseSize d) : (qcall g (.push d overwrite) s).1 = .error .itemTooBig := by
  obtain ⟨σ, P, h⟩ := h.qi w
  obtain ⟨σ', P', h1, _, h3⟩ := qcall_det w (md := ⟨true, false, none, fun _ => True, false⟩) rfl h (.push d overwrite) trivial (by simp)
  simp only [queueStep] at h3
  rcases h3 with ⟨h4, h5, h6⟩ | ⟨h4, _⟩ | ⟨h4, _⟩
  · exact h5
  · exact absurd h4 hd
  · exact absurd h4 hd

example : (qcall geo2 (.push (List.replicate 17 1#8) true) st2).1 = .error .itemTooBig :=
  too_big_is_refused geo2_wf st2_reached _ _ (by unfold FitsPage; decide)

/-- A successful push appends. -/
theorem push_appends (w : g.WF) (h : Reached g s) (d : List Byte)
    (hok : (qcall g (.push d false) s).1 = .ok .done) :
    ∃ q, Contents g s q ∧ Contents g (qcall g (.push d false) s).2 (q ++ [d]) := by
  obtain ⟨σ, P, h⟩ := h.qi w
  obtain ⟨σ', P', h1, _, h3⟩ := qcall_det w (md := ⟨true, false, none, fun _ => True, false⟩) rfl h (.push d false) trivial (by simp)
  simp only [queueStep, hok] at h3
  rcases h3 with ⟨h4, h5, h6⟩ | ⟨h4, h5, h6, h7, _⟩ | ⟨_, _, lost, kept, h7, h8, h9, _⟩
  · simp at h5
  · simp at h6
  · have := h9 trivial
    subst this
    refine ⟨_, h.contents w, ?_⟩
    rw [h7, List.nil_append, ← h8]
    exact h1.contents w

example : ∃ q, Contents geo1 st1 q ∧ Contents geo1 (qcall geo1 (.push [7#8] false) st1).2 (q ++ [[7#8]]) :=
  push_appends geo1_wf st1_reached _ (by decide +kernel)

/-- C03. A push that may overwrite succeeds for data that fits a page. It gives up at most a page of the
oldest items, and only when it would otherwise be refused. -/
theorem overwriting_push (w : g.WF) (h : Reached g s) (d : List Byte) (hf : FitsPage g.word g.eraseSize d) :
    (qcall g (.push d true) s).1 = .ok .done ∧
    ∃ lost kept, Contents g s (lost ++ kept) ∧ Contents g (qcall g (.push d true) s).2 (kept ++ [d]) ∧
      (lost.map (itemSize g.word)).sum + 2 * g.word ≤ g.eraseSize ∧
      (lost ≠ [] → (qcall g (.push d false) s).1 = .error .fullStorage) := by
  obtain ⟨σ, P, h⟩ := h.qi w
  have hmd : (⟨true, false, none, fun _ => True, false⟩ : Mode).OK g := ⟨by simp, by simp⟩
  have hb := (fitsPage_iff w).1 hf
  rcases (push_sat w h hmd (by simp) true (d := d)).cases with
    ⟨_, s1, he, σ', P', q', h1, _, _, h2, h3, h4, h5, _⟩ | ⟨e, s1, he, _, σ', P', h1, hE⟩
  · have hr : qcall g (.push d true) s = (.ok .done, s1) := by simp only [qcall]; rw [bind_ok he]; rfl
    rw [hr]
    refine ⟨rfl, ?_⟩
    have hc' := h1.qi.contents w
    rw [h3] at hc'
    obtain ⟨lost, h6, _, h8⟩ := h4.spec w
    refine ⟨lost, q', h6 ▸ h.contents w, hc', h8, ?_⟩
    intro hl
    have hnr : ¬ Room g σ P d.length := by
      rcases h4 with h4 | ⟨_, h4, _⟩
      · rw [h4] at h6
        exact absurd (List.append_left_eq_self.1 h6.symm) hl
      · exact h4
    simp only [qcall]
    rcases (push_sat w h hmd (by simp) false (d := d)).cases with
      ⟨_, s1, he, σ', P', q', h1, _, _, h2, h3, h4, h5, _⟩ | ⟨e, s1, he, _, σ', P', h1, hE⟩
    · exact absurd (h5 rfl) hnr
    · rw [bind_err he]
      rcases hE with ⟨rfl, _⟩ | ⟨rfl, ht, _⟩ | ⟨_, hc, _⟩
      · rfl
      · rw [hb] at ht; simp at ht
      · simp at hc
  · rcases hE with ⟨rfl, ha, _⟩ | ⟨rfl, ht, _⟩ | ⟨_, hc, _⟩
    · simp at ha
    · rw [hb] at ht; simp at ht
    · simp at hc

example : (qcall geo2 (.push [1#8] true) st2).1 = .ok .done ∧
    (qrun geo2 [.push [1#8] true, .peek buf32] st2).1 = [.ok .done, .ok (.item (some [5#8, 6#8, 7#8, 8#8, 9#8]))] :=
  ⟨(overwriting_push geo2_wf st2_reached [1#8] (by unfold FitsPage; decide)).1, by decide +kernel⟩

/-- Iterating in the specification with large buffers. -/
theorem iterate_large (W n : Nat) (b : List Byte) (hb : n ≤ b.length) (seen todo : List (List Byte)) (pops : List Bool)
    (hq : ∀ d ∈ todo, pad W d.length ≤ n) :
    iterate W seen todo (pops.map fun p => (b, p)) =
      ((List.range pops.length).map (fun i => .ok todo[i]?),
        seen ++ ((todo.zipIdx.filter fun x => pops[x.2]? ≠ some true).map (·.1))) := by
  induction pops generalizing seen todo with
  | nil =>
    simp only [List.map_nil, iterate, List.length_nil, List.range_zero, List.getElem?_nil]
    rw [List.filter_eq_self.2 (by simp)]
    simp
  | cons p pops ih =>
    cases todo with
    | nil =>
      simp only [List.map_cons, iterate]
      rw [ih seen [] (by simp)]
      simp [List.range_succ_eq_map]
    | cons d todo =>
      simp only [List.map_cons, iterate]
      rw [if_pos (by have := hq d (by simp); omega)]
      rw [ih _ todo (fun d hd => hq d (by simp [hd]))]
      refine Prod.ext ?_ ?_
      · simp [List.range_succ_eq_map]
      · rw [List.zipIdx_cons']
        cases p <;> simp [List.filter_map, Function.comp_def]

/-- C06. An iteration gives every item once, oldest first, and then nothing; exactly the popped items are
gone afterwards. -/
theorem iteration_is_complete (w : g.WF) (h : Reached g s) (b : List Byte) (hb : g.eraseSize ≤ b.length) (pops : List Bool) :
    ∃ q, Contents g s q ∧
      (qcall g (.iterate (pops.map fun p => (b, p))) s).1 =
        .ok (.items ((List.range pops.length).map fun i => .ok q[i]?)) ∧
      Contents g (qcall g (.iterate (pops.map fun p => (b, p))) s).2
        ((q.zipIdx.filter fun x => pops[x.2]? ≠ some true).map (·.1)) := by
  obtain ⟨σ, P, h⟩ := h.qi w
  obtain ⟨σ', P', h1, _, h3⟩ := qcall_det w (md := ⟨true, false, none, fun _ => True, false⟩) rfl h (.iterate (pops.map fun p => (b, p))) trivial (by simp)
  simp only [queueStep] at h3
  have hi := iterate_large g.word g.eraseSize b hb [] (content g.pageCount σ P) pops
    (fun d hd => by have := h.item_le w hd; omega)
  refine ⟨_, h.contents w, ?_, ?_⟩
  · rw [h3.1, hi]
  · have := h1.contents w
    rw [h3.2, hi, List.nil_append] at this
    exact this

example : (qrun geo2 [.iterate [(buf32, false), (buf32, true), (buf32, false), (buf32, true)],
      .iterate [(buf32, false), (buf32, true), (buf32, false)]] st2).1 =
    [.ok (.items [.ok (some [1#8, 2#8, 3#8]), .ok (some [4#8]), .ok (some [5#8, 6#8, 7#8, 8#8, 9#8]), .ok none]),
      .ok (.items [.ok (some [1#8, 2#8, 3#8]), .ok (some [5#8, 6#8, 7#8, 8#8, 9#8]), .ok none])] := by decide +kernel

/-- C40. A too small buffer is reported with the needed size and the item stays; a buffer of that size
is enough. -/
theorem small_buffer (w : g.WF) (h : Reached g s) (b : List Byte) :
    ∃ q, Contents g s q ∧
      match q with
      | [] => (qcall g (.pop b) s).1 = .ok (.item none) ∧ (qcall g (.peek b) s).1 = .ok (.item none)
      | d :: rest =>
        (pad g.word d.length ≤ b.length → (qcall g (.pop b) s).1 = .ok (.item (some d)) ∧
          Contents g (qcall g (.pop b) s).2 rest ∧ (qcall g (.peek b) s).1 = .ok (.item (some d))) ∧
        (b.length < pad g.word d.length → (qcall g (.pop b) s).1 = .error (.bufferTooSmall (pad g.word d.length)) ∧
          Contents g (qcall g (.pop b) s).2 q ∧
          (qcall g (.peek b) s).1 = .error (.bufferTooSmall (pad g.word d.length)) ∧
          Contents g (qcall g (.peek b) s).2 q) := by
  obtain ⟨σ, P, h⟩ := h.qi w
  obtain ⟨σ1, P1, h1, _, h3⟩ := qcall_det w (md := ⟨true, false, none, fun _ => True, false⟩) rfl h (.pop b) trivial (by simp)
  obtain ⟨σ2, P2, h2, _, h4⟩ := qcall_det w (md := ⟨true, false, none, fun _ => True, false⟩) rfl h (.peek b) trivial (by simp)
  simp only [queueStep] at h3 h4
  have hc1 := h1.contents w
  have hc2 := h2.contents w
  refine ⟨_, h.contents w, ?_⟩
  cases hq : content g.pageCount σ P with
  | nil => rw [hq] at h3 h4; exact ⟨h3.1, h4.1⟩
  | cons d rest =>
    rw [hq] at h3 h4
    simp only at h3 h4 ⊢
    constructor
    · intro hl
      rw [if_pos hl] at h3 h4
      exact ⟨h3.1, h3.2 ▸ hc1, h4.1⟩
    · intro hl
      rw [if_neg (by omega)] at h3 h4
      exact ⟨h3.1, h3.2 ▸ hc1, h4.1, h4.2 ▸ hc2⟩

example : (qrun geo2 [.pop [0#8, 0#8, 0#8], .peek [0#8], .pop [0#8, 0#8, 0#8, 0#8]] st2).1 =
    [.error (.bufferTooSmall 4), .error (.bufferTooSmall 4), .ok (.item (some [1#8, 2#8, 3#8]))] := by decide +kernel

/-- C41. Peeking leaves the items alone and a following pop gives the same. -/
theorem peek_is_harmless (w : g.WF) (h : Reached g s) (b : List Byte) :
    (∃ q, Contents g s q ∧ Contents g (qcall g (.peek b) s).2 q) ∧
    (qcall g (.pop b) (qcall g (.peek b) s).2).1 = (qcall g (.peek b) s).1 := by
  obtain ⟨σ, P, h⟩ := h.qi w
  obtain ⟨σ1, P1, h1, _, h3⟩ := qcall_det w (md := ⟨true, false, none, fun _ => True, false⟩) rfl h (.peek b) trivial (by simp)
  obtain ⟨σ2, P2, h2, _, h4⟩ := qcall_det w (md := ⟨true, false, none, fun _ => True, false⟩) rfl h1 (.pop b) trivial (by simp)
  simp only [queueStep] at h3 h4
  have hc1 := h1.contents w
  cases hq : content g.pageCount σ P with
  | nil =>
    rw [hq] at h3
    simp only at h3
    rw [h3.2] at h4 hc1
    exact ⟨⟨_, h.contents w, hq ▸ hc1⟩, by rw [h4.1, h3.1]⟩
  | cons d rest =>
    rw [hq] at h3
    simp only at h3
    split at h3
    · rename_i hl
      rw [h3.2] at h4 hc1
      simp only at h4
      rw [if_pos hl] at h4
      exact ⟨⟨_, h.contents w, hq ▸ hc1⟩, by rw [h4.1, h3.1]⟩
    · rename_i hl
      rw [h3.2] at h4 hc1
      simp only at h4
      rw [if_neg hl] at h4
      exact ⟨⟨_, h.contents w, hq ▸ hc1⟩, by rw [h4.1, h3.1]⟩

example : (qcall geo2 (.pop buf32) (qcall geo2 (.peek buf32) st2).2).1 = .ok (.item (some [1#8, 2#8, 3#8])) := by
  rw [(peek_is_harmless geo2_wf st2_reached buf32).2]; decide +kernel

theorem iterate_none (W : Nat) (bs seen todo : List (List Byte)) :
    (iterate W seen todo (bs.map fun b => (b, false))).2 = seen ++ todo := by
  induction bs generalizing seen todo with
  | nil => simp [iterate]
  | cons b bs ih =>
    cases todo with
    | nil => simp only [List.map_cons, iterate]; exact ih _ _
    | cons d todo =>
      simp only [List.map_cons, iterate]
      split
      · simp [ih]
      · exact ih _ _

/-- C41. Iterating without popping leaves the items alone, whatever the buffers. -/
theorem iterating_is_harmless (w : g.WF) (h : Reached g s) (bs : List (List Byte)) :
    ∃ q, Contents g s q ∧ Contents g (qcall g (.iterate (bs.map fun b => (b, false))) s).2 q := by
  obtain ⟨σ, P, h⟩ := h.qi w
  obtain ⟨σ', P', h1, _, h3⟩ := qcall_det w (md := ⟨true, false, none, fun _ => True, false⟩) rfl h (.iterate (bs.map fun b => (b, false))) trivial (by simp)
  simp only [queueStep] at h3
  have hc := h1.contents w
  rw [h3.2, iterate_none, List.nil_append] at hc
  exact ⟨_, h.contents w, hc⟩

example : ∃ q, Contents geo2 st2 q ∧
    Contents geo2 (qcall geo2 (.iterate ([buf32, [], buf32].map fun b => (b, false))) st2).2 q :=
  iterating_is_harmless geo2_wf st2_reached [buf32, [], buf32]

/-- An empty queue on two or more pages accepts any data that fits a page. -/
theorem empty_queue_accepts (w : g.WF) (h : Reached g s) (hn : 2 ≤ g.pageCount) (hq : Contents g s []) (d : List Byte)
    (hd : FitsPage g.word g.eraseSize d) : (qcall g (.push d false) s).1 = .ok .done := by
  obtain ⟨σ, P, h⟩ := h.qi w
  obtain ⟨σ', P', h1, _, h3⟩ := qcall_det w (md := ⟨true, false, none, fun _ => True, false⟩) rfl h (.push d false) trivial (by simp)
  simp only [queueStep] at h3
  rcases h3 with ⟨h4, h5, h6⟩ | ⟨_, _, _, _, h4⟩ | ⟨_, h4, _⟩
  · exact absurd hd h4
  · exact absurd ((h.contents w).unique hq) (h4 hn)
  · exact h4

/-- C37. Once pop has returned `None`, a push of any data that fits a page succeeds, if there are at
least two pages. Missing: a single page, for which it is false, see `emptied_single_page_refuses`. -/
theorem emptied_queue_accepts_partial (w : g.WF) (h : Reached g s) (hn : 2 ≤ g.pageCount) (b : List Byte)
    (hp : (qcall g (.pop b) s).1 = .ok (.item none)) (d : List Byte) (hd : FitsPage g.word g.eraseSize d) :
    (qcall g (.push d false) (qcall g (.pop b) s).2).1 = .ok .done := by
  obtain ⟨σ, P, h⟩ := h.qi w
  obtain ⟨σ', P', h1, _, h3⟩ := qcall_det w (md := ⟨true, false, none, fun _ => True, false⟩) rfl h (.pop b) trivial (by simp)
  obtain ⟨σ2, P2, h2, _, h4⟩ := qcall_det w (md := ⟨true, false, none, fun _ => True, false⟩) rfl h1 (.push d false) trivial (by simp)
  have hc : content g.pageCount σ' P' = [] := by
    simp only [queueStep, hp] at h3
    split at h3
    · exact h3.2
    · split at h3
      · simp at h3
      · simp at h3
  simp only [queueStep] at h4
  rcases h4 with ⟨h4, h5, h6⟩ | ⟨_, _, _, _, h4⟩ | ⟨_, h4, _⟩
  · exact absurd hd h4
  · exact absurd hc (h4 hn)
  · exact h4

/-- Two full pages, all popped. -/
def emptied2 : St Unit := (qrun geo2 (calls2 ++ [.pop buf32, .pop buf32, .pop buf32]) freshSt).2

example : (qcall geo2 (.push (List.replicate 16 9#8) false) (qcall geo2 (.pop buf32) emptied2).2).1 = .ok .done :=
  emptied_queue_accepts_partial geo2_wf
    (fresh_reached _ (by
      intro c hc
      simp only [calls2, List.cons_append, List.nil_append, List.mem_cons, List.not_mem_nil, or_false] at hc
      rcases hc with rfl | rfl | rfl | rfl | rfl | rfl <;> trivial))
    (by decide) buf32 (by decide +kernel) _ (by unfold FitsPage; decide)

/-- C37 is false of a single page: when it is full and everything is popped, nothing can be pushed. -/
theorem emptied_single_page_refuses :
    ∃ (cs : List (QCall (Cache Unit))) (d : List Byte), FitsPage 4 32 d ∧
      (qrun geo1 cs freshSt).1 = [.ok .done, .ok (.item (some [1#8, 2#8, 3#8, 4#8, 5#8, 6#8, 7#8, 8#8, 9#8])), .ok (.item none),
        .error .fullStorage, .error .fullStorage] ∧
      cs = [.push [1#8, 2#8, 3#8, 4#8, 5#8, 6#8, 7#8, 8#8, 9#8] false, .pop buf32, .pop buf32, .push d false, .push d false] :=
  ⟨_, [1#8], by unfold FitsPage; decide, by decide +kernel, rfl⟩

/-- It stays so: the page still counts as free space. -/
theorem emptied_single_page_space :
    (qrun geo1 [.push [1#8, 2#8, 3#8, 4#8, 5#8, 6#8, 7#8, 8#8, 9#8] false, .pop buf32, .spaceLeft, .push [1#8] false] freshSt).1 =
      [.ok .done, .ok (.item (some [1#8, 2#8, 3#8, 4#8, 5#8, 6#8, 7#8, 8#8, 9#8])), .ok (.space 24), .error .fullStorage] := by
  decide +kernel

/-- C42. Restarting with any new cache, and any buffer left over, changes no later answer. -/
theorem restart_is_invisible (w : g.WF) (h : Reached g s) (c : Cache K) (hc : FreshCache g.pageCount c)
    (cs : List (QCall (Cache K))) (hd : ∀ c ∈ cs, Documented g c) :
    (qrun g cs (qcall g (.restart c) s).2).1 = (qrun g cs s).1 := by
  obtain ⟨σ, P, h⟩ := h.qi w
  obtain ⟨_, _, h1, _⟩ := qrun_det w (md := ⟨true, false, none, fun _ => True, false⟩) rfl cs h hd (by simp)
  obtain ⟨_, _, h2, _⟩ := qrun_det w (md := ⟨true, false, none, fun _ => True, false⟩) rfl cs (h.restart hc) hd (by simp)
  rw [h1] at h2
  exact (congrArg Prod.fst h2).symm

example : (qrun geo2 [.pop buf32, .spaceLeft] (qcall geo2 (.restart (cachedSt 2).cache) st2).2).1 =
    [.ok (.item (some [1#8, 2#8, 3#8])), .ok (.space 8)] :=
  (restart_is_invisible geo2_wf st2_reached _ (cached_start geo2).cache _ (by
    intro c hc
    simp only [List.mem_cons, List.not_mem_nil, or_false] at hc
    rcases hc with rfl | rfl <;> trivial)).trans (by decide +kernel)

/-- A call that does not cache anything after a restart. -/
def plain : QCall (Cache K) → QCall (Cache K)
  | .restart _ => .restart noCache
  | c => c

/-- C18, queue part. With any caches, and any change of caches at restarts, every call answers as
without cache (take `noCache` for the cache of `s'`). -/
theorem caches_are_invisible {s' : St K} (w : g.WF) (h : Start g s) (h' : Start g s')
    (cs : List (QCall (Cache K))) (hd : ∀ c ∈ cs, Documented g c) :
    (qrun g cs s).1 = (qrun g (cs.map plain) s').1 := by
  obtain ⟨_, _, h1, _⟩ := qrun_det w (md := ⟨true, false, none, fun _ => True, false⟩) rfl cs (h.qi w) hd (by simp)
  have hd' : ∀ c ∈ cs.map plain, Documented g c := by
    intro c hc
    obtain ⟨c0, hc0, rfl⟩ := List.mem_map.1 hc
    cases c0 with
    | restart _ => exact noCache_fresh _
    | _ => trivial
  obtain ⟨_, _, h2, _⟩ := qrun_det w (md := ⟨true, false, none, fun _ => True, false⟩) rfl (cs.map plain) (h'.qi w) hd' (by simp)
  have he : ∀ (cs : List (QCall (Cache K))) σ P, (qrunA g (cs.map plain) σ P).1 = (qrunA g cs σ P).1 := by
    intro cs
    induction cs with
    | nil => intro σ P; rfl
    | cons c cs ih =>
      intro σ P
      have : qcallA g σ P (plain c) = qcallA g σ P c := by cases c <;> rfl
      simp only [List.map_cons, qrunA, this, ih]
  have h3 := he cs .initial (fun _ => .blank)
  rw [h1, h2] at h3
  exact h3.symm

example : (qrun geo2 (calls2 ++ [.restart (cachedSt 2).cache, .pop buf32, .pop buf32, .pop buf32, .pop buf32]) (cachedSt 2)).1 =
    [.ok .done, .ok .done, .ok .done, .ok .done, .ok (.item (some [1#8, 2#8, 3#8])), .ok (.item (some [4#8])),
      .ok (.item (some [5#8, 6#8, 7#8, 8#8, 9#8])), .ok (.item none)] :=
  (caches_are_invisible (s' := freshSt) geo2_wf (cached_start geo2) (fresh_start _) _ (by
    intro c hc
    simp only [calls2, List.cons_append, List.nil_append, List.mem_cons, List.not_mem_nil, or_false] at hc
    rcases hc with rfl | rfl | rfl | rfl | rfl | rfl | rfl | rfl <;> first | trivial | exact (cached_start geo2).cache)).trans (by decide +kernel)

/-- C31. What `find_max_fit` says about data that fits a page, on two or more pages: `Some(n)` means
that exactly the data of at most `n` bytes can be pushed, `None` that none can. Missing: `n` itself can be more
than fits a page, see `find_max_fit_too_large`, and on a single page the answer is an error, see
`find_max_fit_single_page`. -/
theorem find_max_fit_partial (w : g.WF) (h : Reached g s) (hn : 2 ≤ g.pageCount) :
    ∃ v, (qcall g .maxFit s).1 = .ok (.fit v) ∧
      ∀ d, FitsPage g.word g.eraseSize d →
        ((qcall g (.push d false) (qcall g .maxFit s).2).1 = .ok .done ↔ ∃ n, v = some n ∧ d.length ≤ n) := by
  obtain ⟨σ, P, h⟩ := h.qi w
  have hmd : (⟨true, false, none, fun _ => True, false⟩ : Mode).OK g := ⟨by simp, by simp⟩
  rcases (findMaxFit_sat w h).cases with ⟨v, s1, he, _, σ', P', h1, _, _, _, h2, h3⟩ | ⟨e, s1, he, _, σ', P', _, _, h2, _⟩
  · obtain ⟨rfl, rfl⟩ := h3 rfl
    have h2 : v = fitOf g σ' P' := by
      rcases h2 with ⟨_, h2⟩ | ⟨h2, _⟩
      · exact h2
      · omega
    have hr : qcall g .maxFit s = (.ok (.fit v), s1) := by simp only [qcall]; rw [bind_ok he]; rfl
    rw [hr]
    refine ⟨v, rfl, ?_⟩
    intro d hd
    have hb := (fitsPage_iff w).1 hd
    have hroom : Room g σ' P' d.length ↔ ∃ n, v = some n ∧ d.length ≤ n := by
      rw [h2]
      unfold fitOf Room
      by_cases hc : σ'.cnt < g.pageCount ∨ allErased (P' σ'.o) = true
      · rw [if_pos hc]
        have hps := pageSize_add w
        have hl := (not_congr (tooBig_iff w (len := d.length))).1 (by rw [hb]; simp)
        have hru := w.le_roundUp d.length
        constructor
        · intro _; exact ⟨_, rfl, by omega⟩
        · intro _
          rcases hc with hc | hc
          · exact Or.inr (Or.inl hc)
          · exact Or.inr (Or.inr ⟨hn, hc⟩)
      · rw [if_neg hc]
        have hfl := Shape.front_lt h1.good.fs.wf
        have hfree : freeOf g (σ'.front g.pageCount) (P' (σ'.front g.pageCount)) ≤ g.dataEnd (σ'.front g.pageCount) ∧
            g.word ∣ freeOf g (σ'.front g.pageCount) (P' (σ'.front g.pageCount)) := by
          have hp := h1.good.fs.pages _ hfl
          have hpo := page_order w (σ'.front g.pageCount)
          cases hk : P' (σ'.front g.pageCount) with
          | used c its f =>
            rw [hk] at hp
            have := (show Used _ g _ _ c its f from hp).bounds w
            exact ⟨this.2.1, this.2.2⟩
          | _ => exact ⟨by simp only [freeOf]; omega, w.dataStart_word _⟩
        have hav := available_iff w (len := d.length) hfree.1 hfree.2
        have hav : Fits g (σ'.front g.pageCount) (freeOf g (σ'.front g.pageCount) (P' (σ'.front g.pageCount))) d.length ↔
            ∃ n, g.availableDataBytes (g.dataEnd (σ'.front g.pageCount) -
              freeOf g (σ'.front g.pageCount) (P' (σ'.front g.pageCount))) = some n ∧ d.length ≤ n := by
          cases ha : g.availableDataBytes (g.dataEnd (σ'.front g.pageCount) -
              freeOf g (σ'.front g.pageCount) (P' (σ'.front g.pageCount))) with
          | none => rw [ha] at hav; simp only at hav; split at hav <;> simp_all
          | some n => rw [ha] at hav; simp only at hav; split at hav <;> split at hav <;> simp_all
        rw [← hav]
        constructor
        · rintro (hx | hx | ⟨_, hx⟩)
          · exact hx
          · exact absurd (Or.inl hx) hc
          · exact absurd (Or.inr hx) hc
        · intro hx; exact Or.inl hx
    rw [← hroom]
    simp only [qcall]
    rcases (push_sat w h1.qi hmd (by simp) false (d := d)).cases with
      ⟨_, s2, he, σ2, P2, q', h4, _, _, _, _, _, h5, _⟩ | ⟨e, s2, he, _, σ2, P2, h4, hE⟩
    · rw [bind_ok he]
      exact ⟨fun _ => h5 rfl, fun _ => rfl⟩
    · rw [bind_err he]
      refine ⟨fun hx => by simp at hx, fun hx => ?_⟩
      rcases hE with ⟨rfl, _, _, hE, _⟩ | ⟨rfl, ht, _⟩ | ⟨_, hc, _⟩
      · exact absurd hx hE
      · rw [hb] at ht; simp at ht
      · simp at hc
  · rcases h2 with ⟨_, h2⟩ | ⟨_, h2, _⟩
    · simp at h2
    · omega

example : ∃ v, (qcall geo2 .maxFit st2).1 = .ok (.fit v) ∧
      ∀ d, FitsPage 4 32 d →
        ((qcall geo2 (.push d false) (qcall geo2 .maxFit st2).2).1 = .ok .done ↔ ∃ n, v = some n ∧ d.length ≤ n) :=
  find_max_fit_partial geo2_wf st2_reached (by decide)

/-- C31 is false: with a page to spare the answer forgets the item header, and data of the size it
gives is refused. -/
theorem find_max_fit_too_large :
    ∃ n, (qcall geo2 .maxFit freshSt).1 = .ok (.fit (some n)) ∧
      ∀ d : List Byte, d.length = n → (qcall geo2 (.push d false) (qcall geo2 .maxFit freshSt).2).1 = .error .itemTooBig := by
  refine ⟨24, by decide +kernel, fun d hd => ?_⟩
  refine too_big_is_refused geo2_wf (s := (qcall geo2 .maxFit freshSt).2) ⟨freshSt, [.maxFit], fresh_start _, ?_, rfl⟩ d false ?_
  · intro c hc; simp only [List.mem_singleton] at hc; subst hc; trivial
  · rw [FitsPage, itemSize, hd]; decide

/-- On a single page that is written to, the answer is an error though the queue is in order. -/
theorem find_max_fit_single_page :
    (qrun geo1 [.push [1#8, 2#8, 3#8] false, .maxFit, .push [4#8] false, .pop buf32] freshSt).1 =
      [.ok .done, .error .corrupted, .ok .done, .ok (.item (some [1#8, 2#8, 3#8]))] := by decide +kernel

/-- C32. `space_left` is at most the data space of all pages. -/
theorem space_left_is_bounded (w : g.WF) (h : Reached g s) :
    ∃ v, (qcall g .spaceLeft s).1 = .ok (.space v) ∧ v + g.pageCount * (2 * g.word) ≤ g.pageCount * g.eraseSize := by
  obtain ⟨σ, P, h⟩ := h.qi w
  obtain ⟨σ', P', h1, _, h3⟩ := qcall_det w (md := ⟨true, false, none, fun _ => True, false⟩) rfl h .spaceLeft trivial (by simp)
  simp only [queueStep] at h3
  exact h3.2

theorem space_left_eq (w : g.WF) {σ : Shape} {P : Nat → PK} (h : QI ⟨true, false, none, fun _ => True, false⟩ g s σ P) :
    (qcall g .spaceLeft s).1 = .ok (.space ((List.range g.pageCount).map fun i => spaceOf g i (P i)).sum) := by
  simp only [qcall]
  rcases (spaceLeft_sat w h).cases with ⟨v, s1, he, _, σ', P', _, _, _, _, h1, h2⟩ | ⟨e, s1, he, _, σ', P', _, _, _, h1⟩
  · obtain ⟨rfl, rfl⟩ := h2 rfl
    rw [bind_ok he, h1]; rfl
  · simp at h1

/-- C32. On a fresh region it is all of it. -/
theorem space_left_of_fresh (w : g.WF) (h : Start g s) :
    ∃ v, (qcall g .spaceLeft s).1 = .ok (.space v) ∧ v + g.pageCount * (2 * g.word) = g.pageCount * g.eraseSize := by
  refine ⟨_, space_left_eq w (h.qi w), ?_⟩
  have hc : ∀ l : List Nat, (l.map fun i => spaceOf g i .blank).sum = l.length * g.pageSize := by
    intro l
    induction l with
    | nil => simp
    | cons i l ih =>
      rw [List.map_cons, List.sum_cons, ih, List.length_cons, Nat.succ_mul]
      have h1 := w.dataEnd_add i
      have h2 := pageSize_add w
      have h3 := page_order w i
      simp only [spaceOf]
      omega
  rw [hc, List.length_range, ← Nat.mul_add, pageSize_add w]

theorem sum_update (f f' : Nat → Nat) (n i c : Nat) (hi : i < n) (he : ∀ j, j ≠ i → f' j = f j) (hc : f' i + c = f i) :
    ((List.range n).map f').sum + c = ((List.range n).map f).sum := by
  induction n with
  | zero => omega
  | succ n ih =>
    simp only [List.range_succ, List.map_append, List.sum_append, List.map_cons, List.map_nil, List.sum_cons, List.sum_nil]
    by_cases h : i = n
    · subst h
      have : (List.range i).map f' = (List.range i).map f := List.map_congr_left fun j hj => he j (by simp at hj; omega)
      rw [this]; omega
    · rw [he n (by omega)]
      have := ih (by omega)
      omega

theorem turn_closes {σ : Shape} {n : Nat} (wf : σ.WF n) (hp : σ.part = true) : (turnS σ).st n (σ.front n) = .ok .closed := by
  have h1 := CalcOk.front_pos wf
  have h2 := wf.part_pos hp
  rw [hp] at h1
  simp only [if_true] at h1
  rw [Shape.st_closed]
  have h3 : (turnS σ).o = σ.o ∧ (turnS σ).m = σ.m + 1 := ⟨rfl, rfl⟩
  rw [h3.1, h3.2, h1]
  omega

theorem space_add (w : g.WF) {i : Nat} {d : List Byte} {its : List It} {f : Nat} (hl : d.length ≤ 65535) (hf : Fits g i f d.length)
    (hd : g.word ∣ f) :
    spaceOf g i ((PK.used false its f).add g d) + itemSize g.word d = g.dataEnd i - f ∧
      spaceOf g i (PK.used false its f) = g.dataEnd i - f := by
  have hn : (Header.ofData d).next g f = f + g.hl + g.roundUp d.length := by
    unfold Header.next
    have : (Header.ofData d).len.toNat = d.length := by simp [Header.ofData]; omega
    rw [this]
  have ha : (g.availableDataBytes (g.dataEnd i - f)).isNone = false := by
    unfold Fits at hf
    have hdv : g.word ∣ g.dataEnd i - f := Nat.dvd_sub (w.dataEnd_word i) hd
    unfold Geo.availableDataBytes
    rw [w.roundDown_of_dvd hdv, if_pos (by omega)]
    rfl
  have he : allErased ((PK.used false its f).add g d) = false := by
    simp [allErased, PK.add, PK.its, Header.ofData, adapted_ne_zero]
  constructor
  · simp only [PK.add] at he ⊢
    simp only [spaceOf]
    rw [he, Bool.and_false, if_neg (by simp), hn, itemSize_eq]
    have : foot g d = g.hl + g.roundUp d.length := rfl
    unfold Fits at hf
    omega
  · simp only [spaceOf]
    rw [ha, Bool.false_and, if_neg (by simp)]

/-- C32. A push after which no other page is closed takes the size of the item off the space. -/
theorem space_left_after_push (w : g.WF) (h : Reached g s) (d : List Byte)
    (hok : (qcall g (.push d false) s).1 = .ok .done)
    (hpage : ∀ i, i < g.pageCount → (getPageState g i (qcall g (.push d false) s).2).1 = .ok .closed →
      (getPageState g i s).1 = .ok .closed) :
    ∃ v, (qcall g .spaceLeft s).1 = .ok (.space (v + itemSize g.word d)) ∧
      (qcall g .spaceLeft (qcall g (.push d false) s).2).1 = .ok (.space v) := by
  obtain ⟨σ, P, h⟩ := h.qi w
  have hmd : (⟨true, false, none, fun _ => True, false⟩ : Mode).OK g := ⟨by simp, by simp⟩
  have hco := h.fs.torn_free (md := ⟨true, false, none, fun _ => True, false⟩) rfl
  have wf := h.fs.wf
  have hfl := Shape.front_lt wf
  rcases (push_sat w h hmd (by simp) false (d := d)).cases with
    ⟨_, s1, he, σ', P', q', h1, _, _, hb, _, _, _, hA⟩ | ⟨e, s1, he, _⟩
  · have hr : qcall g (.push d false) s = (.ok .done, s1) := by simp only [qcall]; rw [bind_ok he]; rfl
    rw [hr] at hpage ⊢
    simp only at hpage ⊢
    rw [space_left_eq w h, space_left_eq w h1.qi]
    have hA := hA hco
    unfold pushA at hA
    rw [if_neg (by rw [hb]; simp)] at hA
    obtain ⟨s0, hg⟩ : ∃ s0, QG ⟨true, false, none, fun _ => True, false⟩ g s0 σ P := by
      rcases (checkDirty_sat h).cases with ⟨_, s0, _, hg, _⟩ | ⟨_, _, _, hf⟩
      · exact ⟨s0, hg⟩
      · exact hf.elim
    have hblank : σ.part = false → P (σ.front g.pageCount) = .blank := by
      intro hp
      rcases front_blank w hg hp with h' | h'
      · exact h'
      · have := h.fs.st _ hfl
        rw [h'] at this
        have := Shape.st_err.1 this.symm
        rw [hco] at this
        simp at this
    have hopen : (getPageState g (σ.front g.pageCount) s).1 ≠ .ok .closed := by
      rw [getPageState_run w s hfl (h.fs.pages _ hfl)]
      cases hp : σ.part with
      | true => obtain ⟨its, f, hu⟩ := part_used w hg hp; rw [hu]; simp [PK.st]
      | false => rw [hblank hp]; simp [PK.st]
    have hprep : (prepS σ).front g.pageCount = σ.front g.pageCount ∧ (prepS σ).WF g.pageCount ∧ (prepS σ).part = true := by
      unfold prepS
      cases hp : σ.part with
      | true => simp [hp, wf]
      | false =>
        rw [if_neg (by simp)]
        refine ⟨CalcOk.openFront_front hp, CalcOk.openFront_wf wf hp ?_, rfl⟩
        rw [← h.fs.st _ hfl, hblank hp]; rfl
    have hused : ∃ its f, prepP g σ P (σ.front g.pageCount) = .used false its f ∧
        f = freeOf g (σ.front g.pageCount) (P (σ.front g.pageCount)) ∧ g.word ∣ f ∧
        spaceOf g (σ.front g.pageCount) (.used false its f) = spaceOf g (σ.front g.pageCount) (P (σ.front g.pageCount)) := by
      cases hp : σ.part with
      | true =>
        obtain ⟨its, f, hu⟩ := part_used w hg hp
        have hpg := h.fs.pages _ hfl
        rw [hu] at hpg
        exact ⟨its, f, by unfold prepP; rw [hp, if_pos rfl, hu], by rw [hu]; rfl, (Used.bounds w hpg).2.2, by rw [hu]⟩
      | false =>
        refine ⟨[], g.dataStart (σ.front g.pageCount), by unfold prepP; rw [hp, if_neg (by simp), upd_same],
          by rw [hblank hp]; rfl, w.dataStart_word _, ?_⟩
        rw [hblank hp]
        simp only [spaceOf]
        split <;> rfl
    obtain ⟨its, f, hu, hfree, hdv, hsp⟩ := hused
    by_cases hf : Fits g (σ.front g.pageCount) (freeOf g (σ.front g.pageCount) (P (σ.front g.pageCount))) d.length
    · rw [if_pos hf] at hA
      obtain ⟨rfl, rfl⟩ : prepS σ = σ' ∧ putP g (prepS σ) (prepP g σ P) d = P' := by simpa using hA
      refine ⟨_, ?_, rfl⟩
      rw [sum_update (fun i => spaceOf g i (P i)) _ g.pageCount _ (itemSize g.word d) hfl]
      · intro j hj
        unfold putP prepP
        rw [hprep.1, upd_ne hj]
        split
        · rfl
        · rw [upd_ne hj]
      · unfold putP
        rw [hprep.1, upd_same, hu, ← hsp]
        rw [← hfree] at hf
        have := space_add w (i := σ.front g.pageCount) (its := its) (notTooBig w hb 0).1 hf hdv
        omega
    · exfalso
      rw [if_neg hf] at hA
      have hcl : ∀ σ2 : Shape, σ2.WF g.pageCount → σ2.part = true → σ2.front g.pageCount = σ.front g.pageCount →
          σ' = turnS σ2 → False := by
        intro σ2 wf2 hp2 hf2 he2
        apply hopen
        apply hpage _ hfl
        rw [getPageState_run w s1 hfl (h1.good.fs.pages _ hfl), h1.good.fs.st _ hfl, he2, ← hf2]
        exact turn_closes wf2 hp2
      unfold advA at hA
      by_cases hm : (prepS σ).m < g.pageCount
      · rw [if_pos hm] at hA
        simp only [Prod.mk.injEq, true_and] at hA
        exact hcl _ hprep.2.1 hprep.2.2 hprep.1 hA.1.symm
      · rw [if_neg hm] at hA
        by_cases hn1 : g.pageCount = 1
        · rw [if_pos hn1] at hA; simp at hA
        · rw [if_neg hn1] at hA
          have hpos : 0 < g.pageCount := by omega
          have hm2 : 2 ≤ (prepS σ).m := by omega
          split at hA
          · rename_i σ2 P2 heq
            simp only [Prod.mk.injEq, true_and] at hA
            split at heq
            · simp only [Option.some.injEq, Prod.mk.injEq] at heq
              exact hcl _ (CalcOk.dropOldest_wf hprep.2.1 hm2) hprep.2.2
                ((CalcOk.dropOldest_front hprep.2.1 hm2).trans hprep.1) (by rw [← hA.1, heq.1])
            · simp at heq
          · simp at hA
  · simp only [qcall] at hok
    rw [bind_err he] at hok
    simp at hok

example : ∃ v, (qcall geo1 .spaceLeft st1).1 = .ok (.space (v + itemSize 4 [7#8])) ∧
    (qcall geo1 .spaceLeft (qcall geo1 (.push [7#8] false) st1).2).1 = .ok (.space v) :=
  space_left_after_push geo1_wf st1_reached _ (by decide +kernel) (by
    intro i hi
    obtain rfl : i = 0 := by change i < 1 at hi; omega
    have : (getPageState geo1 0 (qcall geo1 (.push [7#8] false) st1).2).1 = .ok .partialOpen := by decide +kernel
    rw [this]; simp)

end SeqStorage.Props
