import Verif.Proofs.Paged
import Verif.Props.Queue
/-
When a push is refused, and how much a queue holds: C50.
-/

namespace SeqStorage.Props
open M Spec

variable {K : Type} [DecidableEq K] {g : Geo} {s : St K}

/-- C50. The answers of a queue on a fresh region are those of a list of pages that are filled one after
the other and given up oldest first; in particular they say when a push is refused, and what
`find_max_fit` and `space_left` answer. -/
theorem queue_fills_its_pages (w : g.WF) (h : Start g s) (cs : List (QCall (Cache K))) (hd : ∀ c ∈ cs, Documented g c) :
    ∃ ps, Runs (fun ps c r ps' => queueStep g.word g.eraseSize g.pageCount (live ps) c r (live ps') ∧
        pagedStep g.word g.eraseSize g.pageCount ps c r ps') [] cs (qrun g cs s).1 ps ∧
      Contents g (qrun g cs s).2 (live ps) := by
  obtain ⟨σ, P, h1, _, h2⟩ := qrun_paged w (md := ⟨true, false, none, fun _ => True, false⟩) rfl rfl cs (h.qi w)
    (fun _ => rfl) hd (by simp)
  refine ⟨_, h2, ?_⟩
  rw [live_pagesOf]
  exact h1.contents w

/-! ### What the pages look like when a push is refused -/

/-- The page was left because something that occurs did not fit any more. -/
def LeftFull (W page : Nat) (Q : List Byte → Prop) (p : List Slot) : Prop :=
  ∃ d, Q d ∧ page < taken W p + itemSize W d + 2 * W

/-- The state of the pages as long as items are taken out at the front only. -/
structure Filled (W page : Nat) (Q : List Byte → Prop) (ps : List (List Slot)) : Prop where
  items : ∀ p ∈ ps, ∀ x ∈ p, Q x.1
  full : ∀ p ∈ ps.dropLast, LeftFull W page Q p
  order : ps.flatten.Pairwise fun x y => x.2 = true → y.2 = true

theorem taken_takePage (W : Nat) (p : List Slot) : taken W (takePage p) = taken W p := by
  induction p with
  | nil => rfl
  | cons x p ih =>
    obtain ⟨d, b⟩ := x
    unfold takePage
    cases b with
    | true => rfl
    | false =>
      simp only [Bool.false_eq_true, if_false]
      unfold taken at ih ⊢
      simp only [List.map_cons, List.sum_cons, ih]

theorem takePage_mem {p : List Slot} {x : Slot} (h : x ∈ takePage p) : ∃ y ∈ p, y.1 = x.1 := by
  induction p with
  | nil => simp [takePage] at h
  | cons z p ih =>
    obtain ⟨d, b⟩ := z
    unfold takePage at h
    cases b with
    | true =>
      simp only [if_true, List.mem_cons] at h
      rcases h with rfl | h
      · exact ⟨_, List.mem_cons_self, rfl⟩
      · exact ⟨x, by simp [h], rfl⟩
    | false =>
      simp only [Bool.false_eq_true, if_false, List.mem_cons] at h
      rcases h with rfl | h
      · exact ⟨_, List.mem_cons_self, rfl⟩
      · obtain ⟨y, h1, h2⟩ := ih h
        exact ⟨y, by simp [h1], h2⟩

theorem takePage_order {p l : List Slot} (h : (p ++ l).Pairwise fun x y => x.2 = true → y.2 = true) :
    (takePage p ++ l).Pairwise fun x y => x.2 = true → y.2 = true := by
  induction p with
  | nil => exact h
  | cons z p ih =>
    obtain ⟨d, b⟩ := z
    rw [List.cons_append, List.pairwise_cons] at h
    unfold takePage
    cases b with
    | true =>
      simp only [if_true, List.cons_append, List.pairwise_cons]
      exact ⟨by simp, h.2⟩
    | false =>
      simp only [Bool.false_eq_true, if_false, List.cons_append, List.pairwise_cons]
      exact ⟨by simp, ih h.2⟩

variable {W page n : Nat} {Q : List Byte → Prop} {ps ps' : List (List Slot)}

theorem nil_or_snoc {α : Type} (l : List α) : l = [] ∨ ∃ a x, l = a ++ [x] := by
  rcases List.eq_nil_or_concat l with h | ⟨a, x, h⟩
  · exact Or.inl h
  · exact Or.inr ⟨a, x, by rw [h, List.concat_eq_append]⟩

theorem dropLast_suffix {α : Type} (a b : List α) (x : α) (h : x ∈ b.dropLast) : x ∈ (a ++ b).dropLast := by
  rcases nil_or_snoc b with rfl | ⟨b', y, rfl⟩
  · simp at h
  · rw [← List.append_assoc, List.dropLast_concat]
    rw [List.dropLast_concat] at h
    simp [h]

theorem Filled.drop (h : Filled W page Q ps) (hg : GivenUp ps ps') : Filled W page Q ps' := by
  obtain ⟨gone, rfl, _, _⟩ := hg
  refine ⟨fun p hp => h.items p (by simp [hp]), fun p hp => h.full p (dropLast_suffix _ _ _ hp), ?_⟩
  have := h.order
  rw [List.flatten_append, List.pairwise_append] at this
  exact this.2.1

theorem Filled.take (h : Filled W page Q ps) : Filled W page Q (takeHead ps) := by
  cases ps with
  | nil => exact h
  | cons p ps =>
    unfold takeHead
    refine ⟨?_, ?_, ?_⟩
    · intro p' hp' x hx
      rcases List.mem_cons.1 hp' with rfl | hp'
      · obtain ⟨y, h1, h2⟩ := takePage_mem hx
        rw [← h2]; exact h.items p (by simp) y h1
      · exact h.items p' (by simp [hp']) x hx
    · intro p' hp'
      cases ps with
      | nil => simp at hp'
      | cons q ps =>
        rw [List.dropLast_cons_of_ne_nil (by simp)] at hp'
        have hf := h.full
        rw [List.dropLast_cons_of_ne_nil (by simp)] at hf
        rcases List.mem_cons.1 hp' with rfl | hp'
        · obtain ⟨d, h1, h2⟩ := hf p (by simp)
          exact ⟨d, h1, by rw [taken_takePage]; exact h2⟩
        · exact hf p' (by simp [hp'])
    · have := h.order
      rw [List.flatten_cons] at this ⊢
      exact takePage_order this

theorem Filled.append (h : Filled W page Q ps) (hl : ∀ p ∈ ps.getLast?, LeftFull W page Q p) {d : List Byte} (hd : Q d) :
    Filled W page Q (ps ++ [[(d, true)]]) := by
  refine ⟨?_, ?_, ?_⟩
  · intro p hp x hx
    rcases List.mem_append.1 hp with hp | hp
    · exact h.items p hp x hx
    · simp only [List.mem_singleton] at hp
      subst hp
      simp only [List.mem_singleton] at hx
      subst hx; exact hd
  · intro p hp
    rw [List.dropLast_concat] at hp
    rcases nil_or_snoc ps with rfl | ⟨b, y, rfl⟩
    · simp at hp
    · rcases List.mem_append.1 hp with hp | hp
      · exact h.full p (by rw [List.dropLast_concat]; exact hp)
      · exact hl p (by simp at hp; simp [hp])
  · rw [List.flatten_append, List.pairwise_append]
    refine ⟨h.order, by simp, ?_⟩
    intro x _ y hy
    simp at hy
    subst hy; simp

theorem Filled.push (h : Filled W page Q ps) {d : List Byte} (hd : Q d) {overwrite : Bool} {r : Except Err QAnswer}
    (hp : pushPaged W page n ps d overwrite r ps') : Filled W page Q ps' := by
  unfold pushPaged at hp
  split at hp
  · rw [hp.2]; exact h
  · split at hp
    · rename_i hl
      have : ps = [] := by simpa using hl
      rw [hp.2, ← List.nil_append [[(d, true)]]]
      subst this
      exact h.append (by simp) hd
    · rename_i p hl
      obtain ⟨a, rfl⟩ : ∃ a, ps = a ++ [p] := by
        rcases nil_or_snoc ps with rfl | ⟨b, y, rfl⟩
        · simp at hl
        · exact ⟨b, by simp at hl; rw [hl]⟩
      split at hp
      · rw [hp.2, List.dropLast_concat]
        refine ⟨?_, ?_, ?_⟩
        · intro p' hp' x hx
          rcases List.mem_append.1 hp' with hp' | hp'
          · exact h.items p' (by simp [hp']) x hx
          · simp only [List.mem_singleton] at hp'
            subst hp'
            rcases List.mem_append.1 hx with hx | hx
            · exact h.items p (by simp) x hx
            · simp only [List.mem_singleton] at hx
              subst hx; exact hd
        · intro p' hp'
          rw [List.dropLast_concat] at hp'
          exact h.full p' (by rw [List.dropLast_concat]; exact hp')
        · have := h.order
          rw [show (a ++ [p ++ [(d, true)]]).flatten = (a ++ [p]).flatten ++ [(d, true)] from by simp, List.pairwise_append]
          refine ⟨this, by simp, ?_⟩
          intro x _ y hy
          simp at hy; subst hy; simp
      · rename_i hf
        have hlf : LeftFull W page Q p := ⟨d, hd, by omega⟩
        split at hp
        · rw [hp.2]
          exact h.append (by simp; exact hlf) hd
        · split at hp
          · rw [hp.2]
            cases a with
            | nil =>
              simp only [List.nil_append, List.tail_cons]
              rw [← List.nil_append [[(d, true)]]]
              exact Filled.append ⟨by simp, by simp, by simp⟩ (by simp) hd
            | cons q a =>
              simp only [List.cons_append, List.tail_cons]
              refine Filled.append ⟨?_, ?_, ?_⟩ (by simp; exact hlf) hd
              · exact fun p' hp' => h.items p' (by simp at hp' ⊢; exact Or.inr hp')
              · intro p' hp'
                refine h.full p' ?_
                rw [List.cons_append]
                exact dropLast_suffix [q] _ _ hp'
              · have := h.order
                rw [List.cons_append, List.flatten_cons, List.pairwise_append] at this
                exact this.2.1
          · rw [hp.2]; exact h

/-- Nothing is taken out of the middle. -/
def FrontOnly {ρ : Type} : QCall ρ → Prop
  | .iterate _ => False
  | _ => True

/-- The pushed data is as `Q` says. -/
def Pushes {ρ : Type} (Q : List Byte → Prop) : QCall ρ → Prop
  | .push d _ => Q d
  | _ => True

theorem Filled.step {ρ : Type} (h : Filled W page Q ps) {c : QCall ρ} (h1 : FrontOnly c) (h2 : Pushes Q c) {r : Except Err QAnswer}
    (hp : pagedStep W page n ps c r ps') : Filled W page Q ps' := by
  cases c with
  | push d o => exact h.push h2 hp
  | pop b =>
    rcases hp with ⟨_, rfl⟩ | ⟨_, rfl⟩
    · exact (h.drop (givenUp_dropSpent ps)).take
    · exact h.drop (givenUp_dropSpent ps)
  | peek b =>
    have hp : ps' = dropSpent ps := hp
    rw [hp]; exact h.drop (givenUp_dropSpent ps)
  | iterate l => exact h1.elim
  | maxFit => rw [hp.1]; exact h
  | spaceLeft => rw [hp.1]; exact h
  | restart c =>
    have hp : ps' = ps := hp
    rw [hp]; exact h

theorem Filled.runs {ρ : Type} {q : List (List Slot) → QCall ρ → Except Err QAnswer → List (List Slot) → Prop} (cs : List (QCall ρ)) :
    ∀ {ps : List (List Slot)} {rs : List (Except Err QAnswer)}, Filled W page Q ps → (∀ c ∈ cs, FrontOnly c) →
      (∀ c ∈ cs, Pushes Q c) →
      Runs (fun ps c r ps' => q ps c r ps' ∧ pagedStep W page n ps c r ps') ps cs rs ps' → Filled W page Q ps' := by
  induction cs with
  | nil => intro ps rs h _ _ hr; rw [hr.2]; exact h
  | cons c cs ih =>
    intro ps rs h h1 h2 hr
    obtain ⟨r, rs', ps1, rfl, ⟨_, hs⟩, hr⟩ := hr
    exact ih (h.step (h1 c (by simp)) (h2 c (by simp)) hs) (fun c hc => h1 c (by simp [hc])) (fun c hc => h2 c (by simp [hc])) hr

theorem live_all {ps : List (List Slot)} (h : ∀ x ∈ ps.flatten, x.2 = true) : live ps = ps.flatten.map (·.1) := by
  unfold live
  rw [List.filter_eq_self.2 h]

/-- A refused push: all pages but the first hold only items that are still there, and each of them has no
room for something that occurs. -/
theorem Filled.refused (h : Filled W page Q ps) (hn : 2 ≤ n) {d : List Byte} (hd : Q d)
    (hp : pushPaged W page n ps d false (.error .fullStorage) ps') :
    ∃ p rest, ps = p :: rest ∧ n ≤ rest.length + 1 ∧ (∃ x ∈ p, x.2 = true) ∧ (∀ x ∈ rest.flatten, x.2 = true) ∧
      ∀ p' ∈ rest, LeftFull W page Q p' := by
  unfold pushPaged at hp
  split at hp
  · simp at hp
  · split at hp
    · simp at hp
    · rename_i p hl
      split at hp
      · simp at hp
      · rename_i hf
        split at hp
        · simp at hp
        · rename_i hlen
          split at hp
          · simp at hp
          · rename_i hs
            cases ps with
            | nil => simp at hl
            | cons a rest =>
              simp only [Bool.false_eq_true, false_or, not_and, List.headD_cons] at hs
              have hs := hs hn
              obtain ⟨x, hx, hx2⟩ : ∃ x ∈ a, x.2 = true := by
                unfold spent at hs
                rw [List.all_eq_true] at hs
                simpa using hs
              refine ⟨a, rest, rfl, by simp at hlen; omega, ⟨x, hx, hx2⟩, ?_, ?_⟩
              · intro y hy
                have := h.order
                rw [List.flatten_cons, List.pairwise_append] at this
                exact this.2.2 x hx y hy hx2
              · intro p' hp'
                rcases nil_or_snoc rest with rfl | ⟨b, z, rfl⟩
                · simp at hp'
                · have hz : z = p := by
                    have : (a :: (b ++ [z])).getLast? = some z := by
                      rw [← List.cons_append, List.getLast?_concat]
                    rw [this] at hl; simpa using hl
                  rcases List.mem_append.1 hp' with hp' | hp'
                  · refine h.full p' ?_
                    rw [← List.cons_append, List.dropLast_concat]
                    simp [hp']
                  · simp only [List.mem_singleton] at hp'
                    rw [hp', hz]
                    exact ⟨d, hd, by omega⟩

/-- The bytes the items of a list take. -/
def sizes (W : Nat) (q : List (List Byte)) : Nat := (q.map (itemSize W)).sum

theorem sizes_append (W : Nat) (a b : List (List Byte)) : sizes W (a ++ b) = sizes W a + sizes W b := by simp [sizes]

theorem sizes_full {m : Nat} (rest : List (List Slot)) (h : ∀ p ∈ rest, page < taken W p + m + 2 * W) :
    rest.length * page + rest.length ≤ sizes W (rest.flatten.map (·.1)) + rest.length * (m + 2 * W) := by
  induction rest with
  | nil => simp [sizes]
  | cons p rest ih =>
    have h1 := h p (by simp)
    have h2 := ih (fun p hp => h p (by simp [hp]))
    have h3 : sizes W ((p :: rest).flatten.map (·.1)) = taken W p + sizes W (rest.flatten.map (·.1)) := by
      rw [List.flatten_cons, List.map_append, sizes_append]
      congr 1
      unfold sizes taken
      rw [List.map_map]; rfl
    rw [h3, List.length_cons, Nat.add_mul, Nat.add_mul]
    omega

theorem live_cons (p : List Slot) (rest : List (List Slot)) : live (p :: rest) = live [p] ++ live rest := by
  rw [← List.singleton_append, live_append]

/-- C50. A push is refused for lack of space only if the items in the queue nearly fill all pages but
one: on each of these pages there is less space left than the largest item takes. -/
theorem refused_only_when_full (w : g.WF) (h : Start g s) (hn : 2 ≤ g.pageCount) (cs : List (QCall (Cache K)))
    (hd : ∀ c ∈ cs, Documented g c) (hf : ∀ c ∈ cs, FrontOnly c) (m : Nat)
    (hm : ∀ c ∈ cs, Pushes (fun d => itemSize g.word d ≤ m) c) (d : List Byte) (hdm : itemSize g.word d ≤ m)
    (he : (qcall g (.push d false) (qrun g cs s).2).1 = .error .fullStorage) :
    ∃ q, Contents g (qrun g cs s).2 q ∧
      (g.pageCount - 1) * g.eraseSize < sizes g.word q + (g.pageCount - 1) * (m + 2 * g.word) := by
  obtain ⟨σ, P, h1, hpk, h2⟩ := qrun_paged w (md := ⟨true, false, none, fun _ => True, false⟩) rfl rfl cs (h.qi w)
    (fun _ => rfl) hd (by simp)
  have hF := Filled.runs cs (Q := fun d => itemSize g.word d ≤ m) (ps := []) ⟨by simp, by simp, by simp⟩ hf hm h2
  obtain ⟨σ1, P1, _, hA, _⟩ := qcall_det w (md := ⟨true, false, none, fun _ => True, false⟩) rfl h1 (.push d false) trivial (by simp)
  rw [he] at hA
  obtain ⟨hp, _⟩ := qcallA_paged w (md := ⟨true, false, none, fun _ => True, false⟩) rfl rfl h1 hpk (.push d false) hA
  obtain ⟨p, rest, hps, hlen, ⟨x, hx, hx2⟩, hlive, hfull⟩ := hF.refused hn hdm hp
  refine ⟨_, h1.contents w, ?_⟩
  rw [← live_pagesOf, hps, live_cons, sizes_append, live_all hlive]
  have h3 := sizes_full (W := g.word) (page := g.eraseSize) (m := m) rest (fun p' hp' => by
    obtain ⟨d', h4, h5⟩ := hfull p' hp'
    omega)
  have h4 : (pagesOf g.pageCount σ P).length ≤ g.pageCount := by rw [pagesOf_length]; exact h1.fs.wf.m_le
  rw [hps, List.length_cons] at h4
  have h5 : rest.length = g.pageCount - 1 := by omega
  rw [h5] at h3
  omega

/-- C50 for data of equal length: if `k` items fit a page, a push is refused only when the queue holds more
than `k` items for each page but one. -/
theorem refused_only_when_full_of_items (w : g.WF) (h : Start g s) (hn : 2 ≤ g.pageCount) (cs : List (QCall (Cache K)))
    (hd : ∀ c ∈ cs, Documented g c) (hf : ∀ c ∈ cs, FrontOnly c) (len : Nat)
    (hm : ∀ c ∈ cs, Pushes (fun d => d.length = len) c) (d : List Byte) (hdm : d.length = len)
    (k : Nat) (hk : k * itemSize g.word d + 2 * g.word ≤ g.eraseSize)
    (he : (qcall g (.push d false) (qrun g cs s).2).1 = .error .fullStorage) :
    ∃ q, Contents g (qrun g cs s).2 q ∧ (g.pageCount - 1) * k < q.length := by
  obtain ⟨σ, P, h1, hpk, h2⟩ := qrun_paged w (md := ⟨true, false, none, fun _ => True, false⟩) rfl rfl cs (h.qi w)
    (fun _ => rfl) hd (by simp)
  have hF := Filled.runs cs (Q := fun d => d.length = len) (ps := []) ⟨by simp, by simp, by simp⟩ hf hm h2
  obtain ⟨σ1, P1, _, hA, _⟩ := qcall_det w (md := ⟨true, false, none, fun _ => True, false⟩) rfl h1 (.push d false) trivial (by simp)
  rw [he] at hA
  obtain ⟨hp, _⟩ := qcallA_paged w (md := ⟨true, false, none, fun _ => True, false⟩) rfl rfl h1 hpk (.push d false) hA
  obtain ⟨p, rest, hps, hlen, ⟨x, hx, hx2⟩, hlive, hfull⟩ := hF.refused hn hdm hp
  refine ⟨_, h1.contents w, ?_⟩
  rw [← live_pagesOf, hps, live_cons, live_all hlive, List.length_append, List.length_map]
  have h4 : (pagesOf g.pageCount σ P).length ≤ g.pageCount := by rw [pagesOf_length]; exact h1.fs.wf.m_le
  rw [hps, List.length_cons] at h4
  have h5 : rest.length = g.pageCount - 1 := by omega
  have hsz : ∀ d' : List Byte, d'.length = len → itemSize g.word d' = itemSize g.word d := by
    intro d' hd'; unfold itemSize; rw [hd', hdm]
  have hone : ∀ p' ∈ rest, k ≤ p'.length := by
    intro p' hp'
    obtain ⟨d', h6, h7⟩ := hfull p' hp'
    have ht : taken g.word p' = p'.length * itemSize g.word d := by
      unfold taken
      refine sum_const w _ _ _ (fun y hy => hsz _ (hF.items p' (by rw [hps]; simp [hp']) y hy))
    rw [hsz d' h6, ht] at h7
    have h8 : k * itemSize g.word d < (p'.length + 1) * itemSize g.word d := by rw [Nat.add_mul]; omega
    have := Nat.lt_of_mul_lt_mul_right h8
    omega
  have hsum : rest.length * k ≤ rest.flatten.length := by
    clear hps hlive hfull hlen h4 h5
    induction rest with
    | nil => simp
    | cons a l ih =>
      have := ih (fun p' hp' => hone p' (by simp [hp']))
      have := hone a (by simp)
      rw [List.length_cons, Nat.add_mul, List.flatten_cons, List.length_append]
      omega
  have hx1 : 0 < (live [p]).length := by
    unfold live
    rw [List.length_map, List.length_pos_iff]
    intro hx3
    rw [List.filter_eq_nil_iff] at hx3
    exact hx3 x (by simpa using hx) hx2
  rw [h5] at hsum
  omega

/-- Four items fill two pages; one of them was taken out again. -/
def four : List (QCall (Cache Unit)) :=
  [.push [1#8] false, .push [2#8] false, .push [3#8] false, .push [4#8] false, .pop buf32]

theorem four_documented : ∀ c ∈ four, Documented geo2 c := by
  intro c hc
  simp only [four, List.mem_cons, List.not_mem_nil, or_false] at hc
  rcases hc with rfl | rfl | rfl | rfl | rfl <;> trivial

theorem four_front : ∀ c ∈ four, FrontOnly c := by
  intro c hc
  simp only [four, List.mem_cons, List.not_mem_nil, or_false] at hc
  rcases hc with rfl | rfl | rfl | rfl | rfl <;> trivial

example : ∃ ps, Runs (fun ps c r ps' => queueStep 4 32 2 (live ps) c r (live ps') ∧ pagedStep 4 32 2 ps c r ps') [] four
    (qrun geo2 four freshSt).1 ps ∧ Contents geo2 (qrun geo2 four freshSt).2 (live ps) :=
  queue_fills_its_pages geo2_wf (fresh_start _) four four_documented

theorem four_refused : (qcall geo2 (.push [5#8] false) (qrun geo2 four freshSt).2).1 = .error .fullStorage := by decide +kernel

example : ∃ q, Contents geo2 (qrun geo2 four freshSt).2 q ∧ (2 - 1) * 32 < sizes 4 q + (2 - 1) * (12 + 2 * 4) :=
  refused_only_when_full geo2_wf (fresh_start _) (by decide) four four_documented four_front 12
    (by
      intro c hc
      simp only [four, List.mem_cons, List.not_mem_nil, or_false] at hc
      rcases hc with rfl | rfl | rfl | rfl | rfl <;> simp [Pushes, itemSize] <;> decide)
    [5#8] (by decide) four_refused

example : ∃ q, Contents geo2 (qrun geo2 four freshSt).2 q ∧ (2 - 1) * 2 < q.length :=
  refused_only_when_full_of_items geo2_wf (fresh_start _) (by decide) four four_documented four_front 1
    (by
      intro c hc
      simp only [four, List.mem_cons, List.not_mem_nil, or_false] at hc
      rcases hc with rfl | rfl | rfl | rfl | rfl <;> simp [Pushes])
    [5#8] rfl 2 (by decide) four_refused

/-- Popping while iterating can take items out of the middle, and then a single item left at the front
keeps all other pages from being used. -/
theorem one_item_can_fill_the_queue :
    (qrun geo2 [.push [1#8] false, .push [2#8] false, .push [3#8] false, .push [4#8] false,
        .iterate [(buf32, false), (buf32, true), (buf32, true), (buf32, true)], .push [5#8] false, .pop buf32, .pop buf32] freshSt).1 =
      [.ok .done, .ok .done, .ok .done, .ok .done,
        .ok (.items [.ok (some [1#8]), .ok (some [2#8]), .ok (some [3#8]), .ok (some [4#8])]),
        .error .fullStorage, .ok (.item (some [1#8])), .ok (.item none)] := by decide +kernel

end SeqStorage.Props
