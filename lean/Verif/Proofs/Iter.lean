import Verif.Proofs.Push
/-
The queue iterator: looking at items, and removing them.
-/

set_option linter.unusedSectionVars false

namespace SeqStorage
open M

variable {K : Type} [DecidableEq K] {α β : Type}
variable {md : Mode} {g : Geo} {σ σ' : Shape} {P P' : Nat → PK}

/-- Where a scan of page `p` continues after the items `pre`. -/
def iterAddr (g : Geo) (p : Nat) (pre : List It) : Nat :=
  match pre.getLast? with
  | none => g.dataStart p
  | some x => x.hdr.next g x.addr

theorem iterAddr_nil (p : Nat) : iterAddr g p [] = g.dataStart p := rfl
theorem iterAddr_snoc (p : Nat) (pre : List It) (x : It) : iterAddr g p (pre ++ [x]) = x.hdr.next g x.addr := by
  simp [iterAddr]

/-- The iterator is on the page at distance `j` from the oldest one, between the items `pre` and `post`. -/
structure IterAt (g : Geo) (q : QIter) (σ : Shape) (P : Nat → PK) (j : Nat) (pre post : List It) : Prop where
  corr : σ.corr = false
  j_lt : j < max σ.m 1
  its : (P (ringPage g.pageCount σ.o j)).its = pre ++ post
  pos : match q.next with
    | .address a => a = iterAddr g (ringPage g.pageCount σ.o j) pre
    | .pageAfter i => i = ringPage g.pageCount σ.o j ∧ post = []
  prev : q.prev ≠ .unpopped → j = 0
  popped : q.prev = .allPopped → ∀ x ∈ pre, x.present = false
  butCur : q.prev = .allButCurrentPopped → ∃ pre' cur, pre = pre' ++ [cur] ∧ (∀ x ∈ pre', x.present = false)
  oldest : q.oldest < g.pageCount ∧ (ringPos g.pageCount σ.o q.oldest = 0 ∨ σ.m ≤ ringPos g.pageCount σ.o q.oldest)

/-- What the iterator has passed. -/
def passed (n : Nat) (σ : Shape) (P : Nat → PK) (j : Nat) (pre : List It) : List (List Byte) :=
  seg n σ.o P 0 j ++ datas pre

/-- What is ahead of the iterator. -/
def ahead (n : Nat) (σ : Shape) (P : Nat → PK) (j : Nat) (post : List It) : List (List Byte) :=
  datas post ++ seg n σ.o P (j + 1) (σ.m - (j + 1))

section
variable (w : g.WF)
include w

/-- A page in use has items, any other has none. -/
theorem page_kind {s : St K} (h : QG md g s σ P) (hc : σ.corr = false) {j : Nat} (hj : j < g.pageCount) :
    (j < σ.m ∧ ∃ c its f, P (ringPage g.pageCount σ.o j) = .used c its f) ∨
    (σ.m ≤ j ∧ P (ringPage g.pageCount σ.o j) = .blank) := by
  have wf := h.good.fs.wf
  have ho := wf.o_lt
  have hl := ringPage_lt ho hj
  have hst := h.good.fs.st _ hl
  have hpos := ringPos_page ho hj
  by_cases hm : j < σ.m
  · left
    refine ⟨hm, ?_⟩
    cases hpk : P (ringPage g.pageCount σ.o j) with
    | used c its f => exact ⟨c, its, f, rfl⟩
    | corr =>
      rw [hpk] at hst
      have := Shape.st_err.1 hst.symm
      omega
    | blank =>
      rw [hpk] at hst
      have := Shape.st_open.1 hst.symm
      omega
    | junk => exact absurd hpk (h.ok.nojunk _ hl)
  · right
    refine ⟨by omega, ?_⟩
    cases hpk : P (ringPage g.pageCount σ.o j) with
    | used c its f =>
      rw [hpk] at hst
      cases c
      · have := Shape.st_part.1 hst.symm; omega
      · have := Shape.st_closed.1 hst.symm; omega
    | corr =>
      rw [hpk] at hst
      have := Shape.st_err.1 hst.symm
      rw [hc] at this; simp at this
    | blank => rfl
    | junk => exact absurd hpk (h.ok.nojunk _ hl)

theorem IterAt.j_lt_n {s : St K} {q : QIter} {j : Nat} {pre post : List It} (h : QG md g s σ P)
    (hi : IterAt g q σ P j pre post) : j < g.pageCount := by
  have := hi.j_lt
  have := h.good.fs.wf.m_le
  have := h.good.fs.wf.o_lt
  omega

/-- All that is stored is behind or ahead. -/
theorem IterAt.content {s : St K} {q : QIter} {j : Nat} {pre post : List It} (h : QG md g s σ P)
    (hi : IterAt g q σ P j pre post) :
    content g.pageCount σ P = passed g.pageCount σ P j pre ++ ahead g.pageCount σ P j post := by
  have hj := hi.j_lt_n w h
  unfold passed ahead
  rcases page_kind w h hi.corr hj with ⟨hm, _⟩ | ⟨hm, hb⟩
  · rw [content_pick hm, hi.its, datas_append]; simp
  · have := hi.j_lt
    have hj0 : j = 0 := by omega
    have hm0 : σ.m = 0 := by omega
    have hits := hi.its
    rw [hb] at hits
    simp only [PK.its] at hits
    have := List.append_eq_nil_iff.1 hits.symm
    rw [this.1, this.2, hj0]
    unfold SeqStorage.content
    simp [hm0]

/-- The items ahead as seen from the address of the iterator. -/
theorem IterAt.layout {s : St K} {q : QIter} {j : Nat} {pre post : List It} (h : QG md g s σ P)
    (hi : IterAt g q σ P j pre post) : ∃ f,
      Layout md.cf g s.fl.mem (g.dataEnd (ringPage g.pageCount σ.o j)) (iterAddr g (ringPage g.pageCount σ.o j) pre) post f ∧
      g.word ∣ iterAddr g (ringPage g.pageCount σ.o j) pre ∧
      g.dataStart (ringPage g.pageCount σ.o j) ≤ iterAddr g (ringPage g.pageCount σ.o j) pre ∧
      iterAddr g (ringPage g.pageCount σ.o j) pre ≤ g.dataEnd (ringPage g.pageCount σ.o j) := by
  have hj := hi.j_lt_n w h
  have hl := ringPage_lt h.good.fs.wf.o_lt hj
  have hpg := h.good.fs.pages _ hl
  have hpo := page_order w (ringPage g.pageCount σ.o j)
  rcases page_kind w h hi.corr hj with ⟨hm, c, its, f, hpk⟩ | ⟨hm, hb⟩
  · rw [hpk] at hpg
    have u : Used md g s.fl (ringPage g.pageCount σ.o j) c its f := hpg
    have hits := hi.its
    rw [hpk] at hits
    simp only [PK.its] at hits
    refine ⟨f, ?_⟩
    have hbd := u.bounds w
    rcases List.eq_nil_or_concat pre with rfl | ⟨pre', x, rfl⟩
    · rw [iterAddr_nil]
      rw [List.nil_append] at hits
      rw [← hits]
      exact ⟨u.layout, w.dataStart_word _, Nat.le_refl _, by omega⟩
    · rw [List.concat_eq_append] at hits ⊢
      rw [iterAddr_snoc]
      have hl := u.layout
      rw [hits, List.append_assoc, List.singleton_append] at hl
      have hm := hl.mem_item w (it := x) (by simp)
      have hn := Layout.next_gt w x.hdr x.addr
      exact ⟨hl.suffix w, Layout.next_dvd w (hl.mem_dvd w (w.dataStart_word _) (it := x) (by simp)), by omega, by omega⟩
  · have hits := hi.its
    rw [hb] at hits hpg
    simp only [PK.its] at hits
    have := List.append_eq_nil_iff.1 hits.symm
    rw [this.1, this.2, iterAddr_nil]
    refine ⟨_, Layout.blank ?_, w.dataStart_word _, Nat.le_refl _, by omega⟩
    intro x h1 h2
    exact hpg.1 x (by omega) (by omega)

omit w in
/-- Only flash and cache matter. -/
theorem QG.cong {s s' : St K} (h : QG md g s σ P) (hf : s'.fl = s.fl) (hc : s'.cache = s.cache) : QG md g s' σ P :=
  ⟨⟨by rw [hf]; exact h.good.fs, by rw [hc]; exact h.good.ps, by rw [hc]; exact h.good.pp⟩, h.ok, by rw [hf]; exact h.log⟩

omit w in
theorem setIter_run (f : QIter → QIter) (s : St K) : Queue.setIter f s = (.ok (), { s with qit := f s.qit }) := rfl

/-- What a scan of the rest of a page leads to. -/
def ScanOk (md : Mode) (g : Geo) (σ : Shape) (P : Nat → PK) (j : Nat) (pre post : List It) (s : St K)
    (r : Option (Header × Nat)) (s' : St K) : Prop :=
  QG md g s' σ P ∧ s'.fl = s.fl ∧ s'.buf.length = s.buf.length ∧ s'.mit = s.mit ∧
  match r with
  | some (hd, a) => ∃ sk it rest, post = sk ++ it :: rest ∧ datas sk = [] ∧ it.present = true ∧ hd = it.hdr ∧ a = it.addr ∧
      g.roundUp it.data.length ≤ s'.buf.length ∧ s'.buf.take it.hdr.len.toNat = it.data ∧ it.data.length = it.hdr.len.toNat ∧
      IterAt g s'.qit σ P j (pre ++ sk ++ [it]) rest ∧ s'.cache.dirty = false ∧
      s'.qit.prev = (if s.qit.prev = .allPopped then .allButCurrentPopped else s.qit.prev)
  | none => ∃ sk rest, post = sk ++ rest ∧ datas sk = [] ∧ IterAt g s'.qit σ P j (pre ++ sk) rest ∧
      s'.qit.prev = s.qit.prev ∧ ((∃ i, s'.qit.next = .pageAfter i) ∨ rest.length < post.length)

omit w in
theorem dropWhile_split (l : List It) : ∃ sk, l = sk ++ l.dropWhile (fun it => decide (it.hdr.crc = 0#32)) ∧
    (∀ x ∈ sk, x.hdr.crc = 0#32) := by
  refine ⟨l.takeWhile (fun it => decide (it.hdr.crc = 0#32)), (List.takeWhile_append_dropWhile).symm, ?_⟩
  intro x hx
  induction l with
  | nil => simp at hx
  | cons y l ih =>
    by_cases hy : y.hdr.crc = 0#32
    · rw [List.takeWhile_cons_of_pos (by simp [hy])] at hx
      rcases List.mem_cons.1 hx with rfl | hx
      · exact hy
      · exact ih hx
    · rw [List.takeWhile_cons_of_neg (by simp [hy])] at hx
      simp at hx

omit w in
theorem erased_not_present {x : It} (h : x.hdr.crc = 0#32) : x.present = false := by
  unfold It.present; rw [h]; simp [adapted_ne_zero]

theorem nextScan_sat {s : St K} {j : Nat} {pre post : List It} (h : QG md g s σ P) (hi : IterAt g s.qit σ P j pre post)
    (hpv : s.qit.prev ≠ .allButCurrentPopped) :
    Sat (Queue.nextScan g (ringPage g.pageCount σ.o j) (iterAddr g (ringPage g.pageCount σ.o j) pre)) s
      (ScanOk md g σ P j pre post s)
      (fun e s' => s' = s ∧ ∃ sk it rest, post = sk ++ it :: rest ∧ datas sk = [] ∧ it.hdr.crc ≠ 0#32 ∧
        e = .bufferTooSmall (g.roundUp it.hdr.len.toNat) ∧
        (s.buf.length < g.roundUp it.hdr.len.toNat ∧ g.roundUp it.hdr.len.toNat + g.hl + 2 * g.word ≤ g.eraseSize)) := by
  have hj := hi.j_lt_n w h
  have hl := ringPage_lt h.good.fs.wf.o_lt hj
  obtain ⟨f, hlay, hdv, hge, hle⟩ := hi.layout w h
  have hpo := page_order w (ringPage g.pageCount σ.o j)
  have hpe := w.page_le hl
  have hr := rounds_ok w (ringPage g.pageCount σ.o j) hge
  have ht := traverse_run w s hlay hdv (by omega) (by omega) (fun h => decide (h.crc = 0#32)) hr.1 hr.2
  unfold Queue.nextScan
  refine Sat.bind_eq ht ?_
  obtain ⟨sk, hsk, hsk0⟩ := dropWhile_split post
  have hskd : datas sk = [] := datas_eq_nil (fun x hx => erased_not_present (hsk0 x hx))
  unfold scanResult
  cases hdw : post.dropWhile (fun it => decide (it.hdr.crc = 0#32)) with
  | nil =>
    rw [hdw, List.append_nil] at hsk
    simp only
    refine Sat.bind_eq (setIter_run _ _) (Sat.pure ⟨h.cong rfl rfl, rfl, rfl, rfl, post, [], by simp, by rw [hsk]; exact hskd, ?_, rfl, Or.inl ⟨_, rfl⟩⟩)
    refine ⟨hi.corr, hi.j_lt, by rw [List.append_nil]; exact hi.its, ⟨rfl, rfl⟩, hi.prev, ?_, ?_, hi.oldest⟩
    · intro h' x hx
      rcases List.mem_append.1 hx with hx | hx
      · exact hi.popped h' x hx
      · rw [hsk] at hx; exact erased_not_present (hsk0 x hx)
    · intro h'; exact absurd h' hpv
  | cons it rest =>
    rw [hdw] at hsk
    have hne : it.hdr.crc ≠ 0#32 := by
      have := List.head_dropWhile_not (p := fun it : It => decide (it.hdr.crc = 0#32)) (l := post) (by rw [hdw]; simp)
      simp only [hdw, List.head_cons] at this
      simpa using this
    have hmem := hlay.mem_item w (it := it) (by rw [hsk]; simp)
    have hidv := hlay.mem_dvd w hdv (it := it) (by rw [hsk]; simp)
    have hnx := (hdrAt_some_iff.1 hmem.2.1).2.2
    have hrd := readItem_run w (e := g.dataEnd (ringPage g.pageCount σ.o j)) (h := it.hdr) s hidv (by omega) hnx (by omega)
    rw [if_neg hne] at hrd
    simp only
    by_cases hb : s.buf.length < g.roundUp it.hdr.len.toNat
    · rw [if_pos hb] at hrd
      exact Sat.of_err (bind_err hrd) ⟨rfl, sk, it, rest, hsk, hskd, hne, rfl, hb, by unfold Header.next at hnx; omega⟩
    · rw [if_neg hb] at hrd
      refine Sat.bind_eq hrd ?_
      have hbl : (bufAfter g s.fl.mem it.addr it.hdr s.buf).length = s.buf.length := bufAfter_length (by omega)
      have hbt : (bufAfter g s.fl.mem it.addr it.hdr s.buf).take it.hdr.len.toNat = it.data := by
        rw [bufAfter_take w, hmem.2.2.2]
      have hrl := w.le_roundUp it.hdr.len.toNat
      -- where the iterator is afterwards
      have hsuf : Layout md.cf g s.fl.mem (g.dataEnd (ringPage g.pageCount σ.o j)) (it.hdr.next g it.addr) rest f := by
        rw [hsk] at hlay; exact hlay.suffix w
      have hpos : match Queue.afterItem g (ringPage g.pageCount σ.o j) (it.hdr.next g it.addr) with
          | .address a => a = iterAddr g (ringPage g.pageCount σ.o j) (pre ++ sk ++ [it])
          | .pageAfter i => i = ringPage g.pageCount σ.o j ∧ rest = [] := by
        unfold Queue.afterItem
        by_cases hge : it.hdr.next g it.addr ≥ g.dataEnd (ringPage g.pageCount σ.o j)
        · rw [if_pos hge]
          refine ⟨rfl, ?_⟩
          have hnone : hdrAt g s.fl.mem (it.hdr.next g it.addr) (g.dataEnd (ringPage g.pageCount σ.o j)) = .ok none := by
            rw [hdrAt_none_iff]; left; omega
          exact (hsuf.det (Layout.done (cf := md.cf) hnone)).1
        · rw [if_neg hge]
          simp only
          rw [iterAddr_snoc]
      have hits : (P (ringPage g.pageCount σ.o j)).its = (pre ++ sk ++ [it]) ++ rest := by
        rw [hi.its, hsk]; simp
      by_cases hp : Present g s.fl.mem it.addr it.hdr
      · rw [if_pos hp]
        simp only
        refine Sat.bind_eq (setIter_run _ _) (Sat.bind_eq (setIter_run _ _) ?_)
        generalize hs1 : ({ s with
          buf := bufAfter g s.fl.mem it.addr it.hdr s.buf
          qit := (fun q : QIter => if q.prev = .allPopped then { q with prev := .allButCurrentPopped } else q)
            { s.qit with next := Queue.afterItem g (ringPage g.pageCount σ.o j) (it.hdr.next g it.addr) } } : St K) = s1
        have hs1q : s1.qit = (fun q : QIter => if q.prev = .allPopped then { q with prev := .allButCurrentPopped } else q)
            { s.qit with next := Queue.afterItem g (ringPage g.pageCount σ.o j) (it.hdr.next g it.addr) } := by rw [← hs1]
        have hs1b : s1.buf = bufAfter g s.fl.mem it.addr it.hdr s.buf := by rw [← hs1]
        have hs1f : s1.fl = s.fl := by rw [← hs1]
        have hs1c : s1.cache = s.cache := by rw [← hs1]
        have hs1m : s1.mit = s.mit := by rw [← hs1]
        rcases (unmark_sat (h.cong hs1f hs1c)).cases with
          ⟨_, s2, he2, hq2, hf2, hfl2, hd2⟩ | ⟨_, _, _, h'⟩
        rotate_left; · exact h'.elim
        have hq2q : s2.qit.next = Queue.afterItem g (ringPage g.pageCount σ.o j) (it.hdr.next g it.addr) ∧
            s2.qit.prev = (if s.qit.prev = .allPopped then .allButCurrentPopped else s.qit.prev) ∧ s2.qit.oldest = s.qit.oldest := by
          rw [hf2.qit, hs1q]
          simp only
          split <;> exact ⟨rfl, rfl, rfl⟩
        refine Sat.bind_eq he2 (Sat.pure ⟨hq2, by rw [hfl2, hs1f], by rw [hf2.buf, hs1b]; exact hbl, by rw [hf2.mit, hs1m],
          sk, it, rest, hsk, hskd, ?_, rfl, rfl, ?_, ?_, ?_, ?_, hd2, hq2q.2.1⟩)
        · unfold It.present
          rw [hmem.2.2.2]
          exact decide_eq_true (present_iff.1 hp)
        · rw [hf2.buf, hs1b, hbl, hmem.2.2.2, dataAt_length]; omega
        · rw [hf2.buf, hs1b]; exact hbt
        · rw [hmem.2.2.2, dataAt_length]
        · refine ⟨hi.corr, hi.j_lt, hits, ?_, ?_, ?_, ?_, ?_⟩
          · rw [hq2q.1]; exact hpos
          · rw [hq2q.2.1]
            intro h'
            apply hi.prev
            intro h''
            rw [h''] at h'
            simp at h'
          · rw [hq2q.2.1]
            intro h'
            split at h'
            · simp at h'
            · rename_i hn; exact absurd h' hn
          · rw [hq2q.2.1]
            intro h'
            split at h'
            · rename_i hn
              refine ⟨pre ++ sk, it, rfl, ?_⟩
              intro x hx
              rcases List.mem_append.1 hx with hx | hx
              · exact hi.popped hn x hx
              · exact erased_not_present (hsk0 x hx)
            · exact absurd h' hpv
          · rw [hq2q.2.2]; exact hi.oldest
      · rw [if_neg hp]
        simp only
        have hnp : it.present = false := by
          unfold It.present
          rw [hmem.2.2.2]
          exact decide_eq_false (fun h => hp (present_iff.2 h))
        refine Sat.bind_eq (setIter_run _ _) (Sat.pure ⟨h.cong rfl rfl, rfl, hbl, rfl, sk ++ [it], rest, by rw [hsk]; simp, ?_, ?_, rfl, Or.inr ?_⟩)
        · rw [datas_append, hskd, datas_cons, hnp]; rfl
        · rw [← List.append_assoc]
          refine ⟨hi.corr, hi.j_lt, hits, hpos, hi.prev, ?_, fun h' => absurd h' hpv, hi.oldest⟩
          intro h' x hx
          simp only [List.mem_append, List.mem_singleton] at hx
          rcases hx with (hx | hx) | rfl
          · exact hi.popped h' x hx
          · exact erased_not_present (hsk0 x hx)
          · exact hnp
        · rw [hsk]; simp; omega

theorem Layout.count_le {cf : Bool} {mem : Nat → Byte} {e a f : Nat} {its : List It} (l : Layout cf g mem e a its f) :
    a + its.length ≤ f := by
  induction l with
  | done h => simp
  | gap _ h _ ih => omega
  | @item a f its hd h t ih =>
    have := Layout.next_gt w hd a
    simp only [List.length_cons]; omega

/-- How many rounds of the loop are left at most. -/
def iterNeed (g : Geo) (q : QIter) (σ : Shape) (j : Nat) (post : List It) : Nat :=
  (match q.next with
    | .address _ => post.length + 1
    | .pageAfter _ => 0) + (max σ.m 1 - 1 - j) * (g.eraseSize + 1) + 1

/-- The outcome of `next` in terms of the pages: `k` pages in use follow the current one, whose
remaining items are `post`. -/
def nextA (g : Geo) (blen : Nat) (prev : PrevItems) : (k : Nat) → Shape → (Nat → PK) → Nat → List It →
    Except Err (Option It) × Shape × (Nat → PK) × Nat × List It
  | k, σ, P, j, post =>
    match post.dropWhile (fun x => !x.present) with
    | it :: rest =>
      if g.roundUp it.data.length ≤ blen then (.ok (some it), σ, P, j, rest)
      else (.error (.bufferTooSmall (g.roundUp it.data.length)), σ, P, j, it :: rest)
    | [] =>
      match k with
      | 0 => (.ok none, σ, P, j, [])
      | k + 1 =>
        if prev = .allPopped then
          nextA g blen prev k (σ.dropOldest g.pageCount) (upd P σ.o .blank) 0
            (upd P σ.o .blank (ringPage g.pageCount σ.o 1)).its
        else nextA g blen prev k σ P (j + 1) (P (ringPage g.pageCount σ.o (j + 1))).its

omit w in
theorem none_present {l : List It} (h : datas l = []) : ∀ x ∈ l, (!x.present) = true := by
  intro x hx
  unfold datas at h
  rw [List.map_eq_nil_iff, List.filter_eq_nil_iff] at h
  have := h x hx
  simpa using this

omit w in
theorem dropWhile_skip {sk rest : List It} (h : datas sk = []) :
    (sk ++ rest).dropWhile (fun x => !x.present) = rest.dropWhile (fun x => !x.present) := by
  have h1 : sk.dropWhile (fun x => !x.present) = [] := by
    have := none_present h
    clear h
    induction sk with
    | nil => rfl
    | cons a l ih =>
      rw [List.dropWhile_cons_of_pos (by simpa using this a (by simp))]
      exact ih (fun x hx => this x (by simp [hx]))
  rw [List.dropWhile_append, h1]
  simp

omit w in
theorem nextA_skip {blen : Nat} {prev : PrevItems} {k : Nat} {j : Nat} {sk rest : List It} (h : datas sk = []) :
    nextA g blen prev k σ P j (sk ++ rest) = nextA g blen prev k σ P j rest := by
  rw [nextA.eq_def g blen prev k σ P j (sk ++ rest), nextA.eq_def g blen prev k σ P j rest]
  dsimp only
  rw [dropWhile_skip h]

omit w in
theorem nextA_found {blen : Nat} {prev : PrevItems} {k : Nat} {j : Nat} {it : It} {rest : List It} (h : it.present = true) :
    nextA g blen prev k σ P j (it :: rest) = if g.roundUp it.data.length ≤ blen then (.ok (some it), σ, P, j, rest)
      else (.error (.bufferTooSmall (g.roundUp it.data.length)), σ, P, j, it :: rest) := by
  rw [nextA.eq_def]
  dsimp only
  rw [List.dropWhile_cons_of_neg (by simp [h])]

/-- The value of `nextA` for an iterator. -/
abbrev outcome (g : Geo) (s : St K) (σ : Shape) (P : Nat → PK) (j : Nat) (post : List It) :=
  nextA g s.buf.length s.qit.prev (σ.m - (j + 1)) σ P j post

/-- What `next` leads to when it succeeds. -/
def LoopOk (md : Mode) (g : Geo) (na : Except Err (Option It) × Shape × (Nat → PK) × Nat × List It) (pas ahd : List (List Byte)) (s : St K) (r : Option (Header × Nat)) (s' : St K) : Prop :=
  ∃ σ' P' j' pre' post', QG md g s' σ' P' ∧ IterAt g s'.qit σ' P' j' pre' post' ∧ s'.buf.length = s.buf.length ∧
    s'.mit = s.mit ∧ s'.cache.dirty = false ∧
    match r with
    | some (hd, a) => ∃ pre'' it, pre' = pre'' ++ [it] ∧ it.present = true ∧ hd = it.hdr ∧ a = it.addr ∧
        g.roundUp it.data.length ≤ s'.buf.length ∧ s'.buf.take it.hdr.len.toNat = it.data ∧ it.data.length = it.hdr.len.toNat ∧
        passed g.pageCount σ' P' j' pre'' = pas ∧ it.data :: ahead g.pageCount σ' P' j' post' = ahd ∧
        s'.qit.prev = (if s.qit.prev = .allPopped then .allButCurrentPopped else s.qit.prev) ∧
        na = (.ok (some it), σ', P', j', post')
    | none => na = (.ok none, σ', P', j', []) ∧ post' = [] ∧ ahd = [] ∧ passed g.pageCount σ' P' j' pre' = pas ∧ ahead g.pageCount σ' P' j' post' = [] ∧
        σ'.m ≤ j' + 1 ∧ s'.qit.prev = s.qit.prev

/-- What `next` leads to when it fails. -/
def LoopErr (md : Mode) (g : Geo) (na : Except Err (Option It) × Shape × (Nat → PK) × Nat × List It) (pas ahd : List (List Byte)) (s : St K) (e : Err) (s' : St K) : Prop :=
  s'.buf.length = s.buf.length ∧ s'.mit = s.mit ∧ (
    (∃ σ' P' j' pre' post' n, QG md g s' σ' P' ∧ IterAt g s'.qit σ' P' j' pre' post' ∧
      passed g.pageCount σ' P' j' pre' = pas ∧ ahead g.pageCount σ' P' j' post' = ahd ∧ s'.qit.prev = s.qit.prev ∧
      e = .bufferTooSmall n ∧ (s.buf.length < n ∧ n + g.hl + 2 * g.word ≤ g.eraseSize) ∧
      (md.cf = true → md.dmg = false → (∃ d rest, ahd = d :: rest ∧ n = g.roundUp d.length) ∧
        na = (.error e, σ', P', j', post'.dropWhile (fun x => !x.present)))) ∨
    (e = .shutoff ∧ md.cf = false ∧ ∃ σ' P', QI md g s' σ' P' ∧ content g.pageCount σ' P' = pas ++ ahd))

theorem nextLoop_sat (rounds : Nat) : ∀ {s : St K} {σ : Shape} {P : Nat → PK} {j : Nat} {pre post : List It},
    QG md g s σ P → IterAt g s.qit σ P j pre post → s.qit.prev ≠ .allButCurrentPopped →
    iterNeed g s.qit σ j post ≤ rounds →
    Sat (Queue.nextLoop g rounds) s
      (LoopOk md g (outcome g s σ P j post) (passed g.pageCount σ P j pre) (ahead g.pageCount σ P j post) s)
      (LoopErr md g (outcome g s σ P j post) (passed g.pageCount σ P j pre) (ahead g.pageCount σ P j post) s) := by
  induction rounds with
  | zero =>
    intro s σ P j pre post h hi hpv hr
    unfold iterNeed at hr
    omega
  | succ rounds ih =>
    -- scanning a page and going round
    have key : ∀ {s0 s : St K} {σ : Shape} {P : Nat → PK} {j : Nat} {pre post : List It} {pas ahd : List (List Byte)}
        {na : Except Err (Option It) × Shape × (Nat → PK) × Nat × List It},
        QG md g s σ P → IterAt g s.qit σ P j pre post → s.qit.prev ≠ .allButCurrentPopped →
        outcome g s σ P j post = na → passed g.pageCount σ P j pre = pas → ahead g.pageCount σ P j post = ahd →
        s.buf.length = s0.buf.length → s.mit = s0.mit → s.qit.prev = s0.qit.prev →
        post.length + (max σ.m 1 - 1 - j) * (g.eraseSize + 1) + 1 ≤ rounds →
        Sat (do
          match ← Queue.nextScan g (ringPage g.pageCount σ.o j) (iterAddr g (ringPage g.pageCount σ.o j) pre) with
          | some r => pure (some r)
          | none => Queue.nextLoop g rounds) s (LoopOk md g na pas ahd s0) (LoopErr md g na pas ahd s0) := by
      intro s0 s σ P j pre post pas ahd na h hi hpv hna hpas hahd hb hmt hpr hr
      rcases (nextScan_sat w h hi hpv).cases with ⟨r, s1, he, hq, hfl, hbl, hmit, hR⟩ | ⟨e, s1, he, rfl, sk, it, rest, hsk, hskd, hne, rfl, hbs⟩
      · refine Sat.bind_eq he ?_
        cases r with
        | some r =>
          obtain ⟨hd, a⟩ := r
          obtain ⟨sk, it, rest, hsk, hskd, hpres, h1, h2, h3, h4, h4', hI, hdy, hpp⟩ := hR
          refine Sat.pure ⟨σ, P, j, _, _, hq, hI, by rw [hbl, hb], by rw [hmit, hmt], hdy, pre ++ sk, it, rfl, hpres, h1, h2, h3, h4, h4', ?_, ?_, ?_, ?_⟩
          · rw [← hpas]; unfold passed; rw [datas_append, hskd, List.append_nil]
          · rw [← hahd]; unfold ahead; rw [hsk, datas_append, hskd, datas_cons, hpres]; simp
          · rw [hpp, hpr]
          · rw [← hna, hsk]
            unfold outcome
            rw [nextA_skip hskd, nextA_found hpres, if_pos (by rw [← hbl]; exact h3)]
        | none =>
          obtain ⟨sk, rest, hsk, hskd, hI, hpp, hlt⟩ := hR
          have hpas' : passed g.pageCount σ P j (pre ++ sk) = pas := by
            rw [← hpas]; unfold passed; rw [datas_append, hskd, List.append_nil]
          have hahd' : ahead g.pageCount σ P j rest = ahd := by
            rw [← hahd]; unfold ahead; rw [hsk, datas_append, hskd, List.nil_append]
          have hn : iterNeed g s1.qit σ j rest ≤ rounds := by
            unfold iterNeed
            rcases hlt with ⟨i, hi⟩ | hlt
            · rw [hi]; simp only; omega
            · split <;> omega
          have := ih hq hI (by rw [hpp]; exact hpv) hn
          have hna' : outcome g s1 σ P j rest = na := by
            rw [← hna, hsk]
            unfold outcome
            rw [nextA_skip hskd, hbl, hpp]
          rw [hpas', hahd', hna'] at this
          refine this.mono ?_ ?_
          · rintro r s' ⟨σ', P', j', pre', post', h1, h2, h3, h4, h4', h5⟩
            refine ⟨σ', P', j', pre', post', h1, h2, by rw [h3, hbl, hb], by rw [h4, hmit, hmt], h4', ?_⟩
            rw [hpp, hpr] at h5
            exact h5
          · rintro e s' ⟨h1, h2, h3⟩
            refine ⟨by rw [h1, hbl, hb], by rw [h2, hmit, hmt], ?_⟩
            rw [hpp, hpr, hbl, hb] at h3
            exact h3
      · refine Sat.of_err (bind_err he) ⟨hb, hmt, Or.inl ⟨σ, P, j, pre, post, _, h, hi, hpas, hahd, hpr, rfl, by rw [← hb]; exact hbs, ?_⟩⟩
        intro hcf hdm
        have hl := ringPage_lt h.good.fs.wf.o_lt (hi.j_lt_n w h)
        have hw := h.ok.whole hcf hdm _ hl it (by rw [hi.its, hsk]; simp)
        have hpres : it.present = true := by
          rcases hw with hw | hw
          · exact absurd hw hne
          · exact hw
        obtain ⟨f, hlay, _⟩ := hi.layout w h
        have hmem := hlay.mem_item w (it := it) (by rw [hsk]; simp)
        have hdl : g.roundUp it.hdr.len.toNat = g.roundUp it.data.length := by rw [hmem.2.2.2, dataAt_length]
        refine ⟨⟨it.data, datas rest ++ seg g.pageCount σ.o P (j + 1) (σ.m - (j + 1)), ?_, hdl⟩, ?_⟩
        · rw [← hahd]; unfold ahead; rw [hsk, datas_append, hskd, datas_cons, hpres]; simp
        · rw [← hna, hsk]
          unfold outcome
          rw [nextA_skip hskd, nextA_found hpres, if_neg (by rw [← hdl]; omega), dropWhile_skip hskd,
            List.dropWhile_cons_of_neg (by simp [hpres]), hdl]
    intro s σ P j pre post h hi hpv hr
    have hj := hi.j_lt_n w h
    have wf := h.good.fs.wf
    have ho := wf.o_lt
    have hl := ringPage_lt ho hj
    have hpos := hi.pos
    unfold Queue.nextLoop
    refine Sat.bind_eq (get_run _) ?_
    unfold iterNeed at hr
    cases hnx : s.qit.next with
    | address a =>
      rw [hnx] at hpos hr
      simp only at hpos hr ⊢
      have hlay := hi.layout w h
      obtain ⟨f, _, _, h1, h2⟩ := hlay
      have hpo := page_order w (ringPage g.pageCount σ.o j)
      have hwp := w.word_pos
      have hidx : g.pageIndex a = ringPage g.pageCount σ.o j := by
        apply w.pageIndex_of <;> omega
      rw [hidx, hpos]
      exact key h hi hpv rfl rfl rfl rfl rfl rfl (by omega)
    | pageAfter i =>
      rw [hnx] at hpos hr
      obtain ⟨hip, hpost⟩ := hpos
      subst hip; subst hpost
      simp only [Nat.zero_add] at hr ⊢
      have hnl : g.nextPage (ringPage g.pageCount σ.o j) < g.pageCount := w.next_lt
      have hmlt := hi.j_lt
      have hml := wf.m_le
      rcases (getCached w h.good hnl).cases with ⟨st, s1, he1, hst, hg1, hsame, _, _, _⟩ | ⟨e, s1, he1, hs, hst⟩
      rotate_left
      · have := Shape.st_err.1 hst
        rw [hi.corr] at this; simp at this
      refine Sat.bind_eq he1 ?_
      have hq1 := hg1.same h.ok hsame h.log
      have hs1q : s1.qit = s.qit := hsame.qit
      -- the page that follows
      have hnp : (j + 1 < σ.m ∧ g.nextPage (ringPage g.pageCount σ.o j) = ringPage g.pageCount σ.o (j + 1)) ∨
          (σ.m ≤ j + 1 ∧ (st = .open ∨ g.nextPage (ringPage g.pageCount σ.o j) = s.qit.oldest)) := by
        by_cases hjm : j + 1 < σ.m
        · left; exact ⟨hjm, ringPage_succ ho (by omega)⟩
        · right
          refine ⟨by omega, ?_⟩
          by_cases hjn : j + 1 < g.pageCount
          · left
            have h1 : g.nextPage (ringPage g.pageCount σ.o j) = ringPage g.pageCount σ.o (j + 1) := ringPage_succ ho hjn
            have h2 := ringPos_page ho hjn
            rw [h1] at hst
            cases st with
            | «open» => rfl
            | closed => have := Shape.st_closed.1 hst; omega
            | partialOpen => have := Shape.st_part.1 hst; omega
          · right
            have hjl : j = g.pageCount - 1 := by omega
            have h1 : g.nextPage (ringPage g.pageCount σ.o j) = σ.o := by rw [hjl]; exact ringPage_last ho
            rw [h1]
            have := hi.oldest
            have hop := ringPos_lt ho this.1
            have h0 : ringPos g.pageCount σ.o s.qit.oldest = 0 := by omega
            have := ringPage_pos ho this.1
            rw [h0, ringPage_zero ho] at this
            exact this
      rcases hnp with ⟨hjm, hnext⟩ | ⟨hjm, hstop⟩
      · -- go on to it
        have hpos1 := ringPos_page ho (show j + 1 < g.pageCount by omega)
        have hnst : st.isOpen = false := by
          cases st with
          | «open» =>
            rw [hnext] at hst
            have := Shape.st_open.1 hst; omega
          | _ => rfl
        have hnold : g.nextPage (ringPage g.pageCount σ.o j) ≠ s.qit.oldest := by
          intro h'
          have := hi.oldest.2
          rw [← h', hnext, hpos1] at this
          omega
        have hcond : ¬ ((st.isOpen || decide (g.nextPage (ringPage g.pageCount σ.o j) = s.qit.oldest)) = true) := by
          rw [hnst]; simpa using hnold
        rw [if_neg hcond]
        by_cases hap : s.qit.prev = .allPopped
        · -- the page is finished with
          have hj0 : j = 0 := hi.prev (by rw [hap]; simp)
          subst hj0
          rw [if_pos hap, ringPage_zero ho]
          have hm2 : 2 ≤ σ.m := by omega
          have hdat : datas (P σ.o).its = [] := by
            have := hi.its
            rw [ringPage_zero ho, List.append_nil] at this
            rw [this]
            exact datas_eq_nil (hi.popped hap)
          have hcd := fun pk => content_dropOldest (P := P) wf hm2 pk
          have hct := fun pk => content_tearOldest (P := P) wf hm2 pk
          have hcon := hi.content w h
          have hpas : passed g.pageCount σ P 0 pre = [] := by
            unfold passed; rw [datas_eq_nil (hi.popped hap)]; simp
          rcases (openOldest w hq1.good hi.corr hm2).cases with ⟨_, s2, he2, hg2, hf2, her2, _⟩ | ⟨e, s2, he2, rfl, hf2, hE⟩
          · refine Sat.bind_eq he2 (Sat.bind_eq (setIter_run _ _) ?_)
            have hQ2 : QG md g s2 (σ.dropOldest g.pageCount) (upd P σ.o .blank) := by
              refine ⟨hg2, h.ok.upd (by simp) (by simp [PK.its]), fun hc => ?_⟩
              rw [her2]
              exact (hq1.log hc).step wf.o_lt (by omega)
            have hdo : (σ.dropOldest g.pageCount).o = ringPage g.pageCount σ.o 1 := rfl
            have hdm : (σ.dropOldest g.pageCount).m = σ.m - 1 := rfl
            have hol := hQ2.good.fs.wf.o_lt
            have hp0 : ringPage g.pageCount (σ.dropOldest g.pageCount).o 0 = ringPage g.pageCount σ.o 1 := ringPage_zero hol
            rw [ringPage_zero ho] at hnext
            rw [hnext]
            generalize hs3 : ({ s2 with qit := { s2.qit with next := .address (g.dataStart (ringPage g.pageCount σ.o (0 + 1))) } } : St K) = s3
            have hs3q : s3.qit = { s.qit with next := .address (g.dataStart (ringPage g.pageCount σ.o (0 + 1))) } := by
              rw [← hs3]; simp only [hf2.qit, hs1q]
            have hQ3 : QG md g s3 (σ.dropOldest g.pageCount) (upd P σ.o .blank) := hQ2.cong (by rw [← hs3]) (by rw [← hs3])
            have hI3 : IterAt g s3.qit (σ.dropOldest g.pageCount) (upd P σ.o .blank) 0 []
                (upd P σ.o .blank (ringPage g.pageCount σ.o 1)).its := by
              refine ⟨hi.corr, by omega, ?_, ?_, fun _ => rfl, by simp, ?_, ?_⟩
              · rw [hp0]; rfl
              · rw [hs3q]; simp only; rw [hp0]; rfl
              · rw [hs3q]; intro h'; exact absurd h' hpv
              · rw [hs3q]
                refine ⟨hi.oldest.1, Or.inr ?_⟩
                show _ ≤ ringPos g.pageCount (σ.dropOldest g.pageCount).o s.qit.oldest
                rw [hdm]
                by_cases heo : s.qit.oldest = σ.o
                · have := CalcOk.dropOldest_pos_o wf hm2
                  rw [heo]; omega
                · have := CalcOk.dropOldest_pos wf hm2 hi.oldest.1 heo
                  have := hi.oldest.2
                  have h0 : ringPos g.pageCount σ.o s.qit.oldest ≠ 0 := by
                    intro h0
                    have := ringPage_pos ho hi.oldest.1
                    rw [h0, ringPage_zero ho] at this
                    exact heo this.symm
                  omega
            have hcon3 := hI3.content w hQ3
            have hpas3 : passed g.pageCount (σ.dropOldest g.pageCount) (upd P σ.o .blank) 0 [] = [] := by simp [passed]
            have hlay := hI3.layout w hQ3
            obtain ⟨f, hlay, _, _, _⟩ := hlay
            have hcnt := Layout.count_le w hlay
            have hlend := hlay.le_end w
            have hpo := page_order w (ringPage g.pageCount (σ.dropOldest g.pageCount).o 0)
            have hwd := w.dataStart_word (ringPage g.pageCount (σ.dropOldest g.pageCount).o 0)
            rw [iterAddr_nil] at hcnt hlend
            have := hlend (by omega) hwd
            have hna : outcome g s3 (σ.dropOldest g.pageCount) (upd P σ.o .blank) 0
                (upd P σ.o .blank (ringPage g.pageCount σ.o 1)).its = outcome g s σ P 0 [] := by
              unfold outcome
              have h1 : σ.m - (0 + 1) = (σ.m - 1 - (0 + 1)) + 1 := by omega
              have hb3 : s3.buf.length = s.buf.length := by rw [← hs3]; show s2.buf.length = _; rw [hf2.buf, hsame.buf]
              rw [h1, nextA.eq_def _ _ _ (σ.m - 1 - (0 + 1) + 1), hdm, hb3, hs3q]
              simp only [List.dropWhile_nil]
              rw [if_pos hap]
            have hfin := key (s0 := s) (pas := passed g.pageCount σ P 0 pre) (ahd := ahead g.pageCount σ P 0 []) hQ3 hI3
              (by rw [hs3q]; exact hpv) hna (by rw [hpas3, hpas]) ?_ ?_ ?_ (by rw [hs3q]) ?_
            · rw [hp0, iterAddr_nil] at hfin
              exact hfin
            · rw [hpas3, List.nil_append] at hcon3
              rw [hpas, List.nil_append] at hcon
              rw [← hcon3, ← hcon, hcd .blank, hdat]; rfl
            · rw [← hs3]; show s2.buf.length = _; rw [hf2.buf, hsame.buf]
            · rw [← hs3]; show s2.mit = _; rw [hf2.mit, hsame.mit]
            · have h1 : max σ.m 1 - 1 - 0 = (max (σ.m - 1) 1 - 1 - 0) + 1 := by omega
              rw [h1, Nat.succ_mul] at hr
              rw [hdm]
              omega
          · refine Sat.of_err (bind_err he2) ⟨by rw [hf2.buf, hsame.buf], by rw [hf2.mit, hsame.mit], Or.inr ⟨rfl, ?_⟩⟩
            rw [← hcon]
            rcases hE with hD | hD | hD
            · exact ⟨hD.crash, _, _, hD.qi h.ok, rfl⟩
            · exact ⟨hD.crash, _, _, hD.qi (h.ok.upd (by simp) (by simp [PK.its])), by rw [hcd .blank, hdat]; rfl⟩
            · exact ⟨hD.crash, _, _, hD.qi (h.ok.upd (by simp) (by simp [PK.its])), by rw [hct .corr, hdat]; rfl⟩
        · rw [if_neg hap]
          refine Sat.bind_eq (setIter_run _ _) ?_
          rw [hnext]
          generalize hs3 : ({ s1 with qit := { s1.qit with next := .address (g.dataStart (ringPage g.pageCount σ.o (j + 1))) } } : St K) = s3
          have hs3q : s3.qit = { s.qit with next := .address (g.dataStart (ringPage g.pageCount σ.o (j + 1))) } := by
            rw [← hs3]; simp only [hs1q]
          have hQ3 : QG md g s3 σ P := hq1.cong (by rw [← hs3]) (by rw [← hs3])
          have hun : s.qit.prev = .unpopped := by
            cases hp : s.qit.prev with
            | unpopped => rfl
            | allPopped => exact absurd hp hap
            | allButCurrentPopped => exact absurd hp hpv
          have hI3 : IterAt g s3.qit σ P (j + 1) [] (P (ringPage g.pageCount σ.o (j + 1))).its := by
            refine ⟨hi.corr, by omega, rfl, ?_, ?_, by simp, ?_, ?_⟩
            · rw [hs3q]; rfl
            · rw [hs3q]; intro h'; exact absurd hun h'
            · rw [hs3q]; intro h'; exact absurd h' hpv
            · rw [hs3q]; exact hi.oldest
          obtain ⟨f, hlay, _, _, _⟩ := hI3.layout w hQ3
          have hcnt := Layout.count_le w hlay
          have hlend := hlay.le_end w
          have hpo := page_order w (ringPage g.pageCount σ.o (j + 1))
          have hwd := w.dataStart_word (ringPage g.pageCount σ.o (j + 1))
          rw [iterAddr_nil] at hcnt hlend
          have := hlend (by omega) hwd
          have hna : outcome g s3 σ P (j + 1) (P (ringPage g.pageCount σ.o (j + 1))).its = outcome g s σ P j [] := by
            unfold outcome
            have h1 : σ.m - (j + 1) = (σ.m - (j + 1 + 1)) + 1 := by omega
            have hb3 : s3.buf.length = s.buf.length := by rw [← hs3]; show s1.buf.length = _; rw [hsame.buf]
            rw [h1, nextA.eq_def _ _ _ (σ.m - (j + 1 + 1) + 1), hb3, hs3q]
            simp only [List.dropWhile_nil]
            rw [if_neg hap]
          have hfin := key (s0 := s) (pas := passed g.pageCount σ P j pre) (ahd := ahead g.pageCount σ P j []) hQ3 hI3
            (by rw [hs3q]; exact hpv) hna ?_ ?_ ?_ ?_ (by rw [hs3q]) ?_
          · rw [iterAddr_nil] at hfin
            exact hfin
          · unfold passed
            have hits := hi.its
            rw [List.append_nil] at hits
            rw [seg_add, seg_one, Nat.zero_add, hits]; simp
          · unfold ahead
            have h1 : σ.m - (j + 1) = 1 + (σ.m - (j + 1 + 1)) := by omega
            rw [h1, seg_add, seg_one]; simp
          · rw [← hs3]; show s1.buf.length = _; rw [hsame.buf]
          · rw [← hs3]; show s1.mit = _; rw [hsame.mit]
          · have h1 : max σ.m 1 - 1 - j = (max σ.m 1 - 1 - (j + 1)) + 1 := by omega
            rw [h1, Nat.succ_mul] at hr
            omega
      · -- there is nothing left
        have hcond : (st.isOpen || decide (g.nextPage (ringPage g.pageCount σ.o j) = s.qit.oldest)) = true := by
          rcases hstop with rfl | h'
          · rfl
          · rw [h']; simp
        rw [if_pos hcond]
        rcases (unmark_sat hq1).cases with ⟨_, s2, he2, hq2, hf2, _, hd2⟩ | ⟨_, _, _, h'⟩
        rotate_left; · exact h'.elim
        have ha : ahead g.pageCount σ P j [] = [] := by
          unfold ahead
          have : σ.m - (j + 1) = 0 := by omega
          rw [this]; rfl
        refine Sat.bind_eq he2 (Sat.pure ⟨σ, P, j, pre, [], hq2, ?_, by rw [hf2.buf, hsame.buf], by rw [hf2.mit, hsame.mit], hd2,
          by unfold outcome; rw [show σ.m - (j + 1) = 0 by omega, nextA]; rfl, rfl, ha, rfl, ha, hjm, by rw [hf2.qit, hs1q]⟩)
        rw [hf2.qit, hs1q]; exact hi

theorem iterNeed_le {s : St K} {q : QIter} {j : Nat} {pre post : List It} (h : QG md g s σ P)
    (hi : IterAt g q σ P j pre post) : iterNeed g q σ j post ≤ Queue.loopRounds g := by
  have wf := h.good.fs.wf
  have hml := wf.m_le
  have ho := wf.o_lt
  obtain ⟨f, hlay, hdv, h1, h2⟩ := hi.layout w h
  have hcnt := Layout.count_le w hlay
  have hle := hlay.le_end w h2 hdv
  have hpo := page_order w (ringPage g.pageCount σ.o j)
  have hp : post.length ≤ g.eraseSize := by omega
  have hk : max σ.m 1 - 1 - j + 1 ≤ g.pageCount := by omega
  have := Nat.mul_le_mul_right (g.eraseSize + 1) hk
  unfold iterNeed Queue.loopRounds
  rw [Nat.succ_mul] at this
  rw [Nat.succ_mul]
  split <;> omega

omit w in
/-- The iterator once `next` is called. -/
theorem IterAt.begin {q : QIter} {j : Nat} {pre post : List It} (hi : IterAt g q σ P j pre post) :
    IterAt g (if q.prev = .allButCurrentPopped then { q with prev := .unpopped } else q) σ P j pre post := by
  split
  · exact ⟨hi.corr, hi.j_lt, hi.its, hi.pos, fun h => absurd rfl h, fun h => by simp at h, fun h => by simp at h, hi.oldest⟩
  · exact hi

/-- What `next` remembers about the item before the current one. -/
def prevOf (p : PrevItems) : PrevItems := if p = .allPopped then .allPopped else .unpopped

/-- What `iter.next` gives. -/
def NextOk (md : Mode) (g : Geo) (na : Except Err (Option It) × Shape × (Nat → PK) × Nat × List It) (pas ahd : List (List Byte)) (s : St K) (r : Option (Header × Nat × List Byte)) (s' : St K) : Prop :=
  ∃ σ' P' j' pre' post', QG md g s' σ' P' ∧ s'.buf.length = s.buf.length ∧ s'.mit = s.mit ∧ s'.cache.dirty = false ∧
    match r with
    | some (hd, a, d) => ∃ it, IterAt g s'.qit σ' P' j' (pre' ++ [it]) post' ∧ it.present = true ∧ hd = it.hdr ∧ a = it.addr ∧
        d = it.data ∧ g.roundUp d.length ≤ s.buf.length ∧ passed g.pageCount σ' P' j' pre' = pas ∧ d :: ahead g.pageCount σ' P' j' post' = ahd ∧
        s'.qit.prev = (if s.qit.prev = .allPopped then .allButCurrentPopped else .unpopped) ∧
        na = (.ok (some it), σ', P', j', post')
    | none => na = (.ok none, σ', P', j', []) ∧ post' = [] ∧ IterAt g s'.qit σ' P' j' pre' post' ∧ ahd = [] ∧ passed g.pageCount σ' P' j' pre' = pas ∧
        ahead g.pageCount σ' P' j' post' = [] ∧ σ'.m ≤ j' + 1 ∧
        s'.qit.prev = (if s.qit.prev = .allPopped then .allPopped else .unpopped)

/-- What `iter.next` leaves when it fails. -/
def NextErr (md : Mode) (g : Geo) (na : Except Err (Option It) × Shape × (Nat → PK) × Nat × List It) (pas ahd : List (List Byte)) (s : St K) (e : Err) (s' : St K) : Prop :=
  s'.buf.length = s.buf.length ∧ s'.mit = s.mit ∧ (
    (∃ σ' P' j' pre' post' n, QG md g s' σ' P' ∧ IterAt g s'.qit σ' P' j' pre' post' ∧
      passed g.pageCount σ' P' j' pre' = pas ∧ ahead g.pageCount σ' P' j' post' = ahd ∧
      s'.qit.prev = (if s.qit.prev = .allPopped then .allPopped else .unpopped) ∧
      e = .bufferTooSmall n ∧ (s.buf.length < n ∧ n + g.hl + 2 * g.word ≤ g.eraseSize) ∧
      (md.cf = true → md.dmg = false → (∃ d rest, ahd = d :: rest ∧ n = g.roundUp d.length) ∧
        na = (.error e, σ', P', j', post'.dropWhile (fun x => !x.present)))) ∨
    (e = .shutoff ∧ md.cf = false ∧ ∃ σ' P', QI md g s' σ' P' ∧ content g.pageCount σ' P' = pas ++ ahd))

theorem iterNext_sat {s : St K} {j : Nat} {pre post : List It} (h : QI md g s σ P) (hi : IterAt g s.qit σ P j pre post) :
    Sat (Queue.iterNext g) s
      (NextOk md g (nextA g s.buf.length (prevOf s.qit.prev) (σ.m - (j + 1)) σ P j post)
        (passed g.pageCount σ P j pre) (ahead g.pageCount σ P j post) s)
      (NextErr md g (nextA g s.buf.length (prevOf s.qit.prev) (σ.m - (j + 1)) σ P j post)
        (passed g.pageCount σ P j pre) (ahead g.pageCount σ P j post) s) := by
  unfold Queue.iterNext
  refine Sat.bind_eq (setIter_run _ _) ?_
  generalize hs0 : ({ s with qit := if s.qit.prev = .allButCurrentPopped then { s.qit with prev := .unpopped } else s.qit } : St K) = s0
  have h0q : s0.qit = if s.qit.prev = .allButCurrentPopped then { s.qit with prev := .unpopped } else s.qit := by rw [← hs0]
  have h0b : s0.buf = s.buf := by rw [← hs0]
  have h0m : s0.mit = s.mit := by rw [← hs0]
  have h0f : s0.fl = s.fl := by rw [← hs0]
  have h0c : s0.cache = s.cache := by rw [← hs0]
  have h0 : QI md g s0 σ P := ⟨by rw [h0f]; exact h.fs, by rw [h0c]; exact h.sized,
    fun hd => by
      rw [h0c] at hd
      exact ⟨by rw [h0f]; exact (h.good hd).fs, by rw [h0c]; exact (h.good hd).ps, by rw [h0c]; exact (h.good hd).pp⟩,
    h.ok, by rw [h0f]; exact h.log⟩
  have hprev : s0.qit.prev ≠ .allButCurrentPopped := by
    rw [h0q]; split
    · simp
    · assumption
  have hprev' : s0.qit.prev = (if s.qit.prev = .allPopped then .allPopped else .unpopped) := by
    rw [h0q]
    cases hp : s.qit.prev with
    | allPopped => rw [if_neg (by simp), if_pos rfl]; exact hp
    | unpopped => rw [if_neg (by simp), if_neg (by simp)]; exact hp
    | allButCurrentPopped => rw [if_pos rfl, if_neg (by simp)]
  have hloop : Sat (withRepair (Queue.nextInner g) (Queue.tryRepair g)) s0
      (LoopOk md g (outcome g s0 σ P j post) (passed g.pageCount σ P j pre) (ahead g.pageCount σ P j post) s0)
      (LoopErr md g (outcome g s0 σ P j post) (passed g.pageCount σ P j pre) (ahead g.pageCount σ P j post) s0) := by
    refine withRepair_sat (C := fun _ => False) ?_ (fun _ h => h.elim)
    unfold Queue.nextInner
    rcases (checkDirty_sat h0).cases with ⟨_, s1, he1, h1, hst1, _, _, _⟩ | ⟨_, _, _, h'⟩
    rotate_left; · exact h'.elim
    refine Sat.bind_eq he1 ?_
    have hi1 : IterAt g s1.qit σ P j pre post := by rw [hst1.qit, h0q]; exact hi.begin
    have hna : outcome g s1 σ P j post = outcome g s0 σ P j post := by unfold outcome; rw [hst1.qit, hst1.buf]
    rw [← hna]
    refine (nextLoop_sat w (Queue.loopRounds g) h1 hi1 (by rw [hst1.qit]; exact hprev) (iterNeed_le w h1 hi1)).mono ?_ ?_
    · rintro r s' ⟨σ', P', j', pre', post', a1, a2, a3, a4, a5, a6⟩
      rw [hst1.qit] at a6
      exact ⟨σ', P', j', pre', post', a1, a2, by rw [a3, hst1.buf], by rw [a4, hst1.mit], a5, a6⟩
    · rintro e s' ⟨a1, a2, a3⟩
      left
      constructor
      · rcases a3 with ⟨_, _, _, _, _, _, _, _, _, _, _, rfl, _⟩ | ⟨rfl, _⟩ <;> simp
      · rw [hst1.qit, hst1.buf] at a3
        exact ⟨by rw [a1, hst1.buf], by rw [a2, hst1.mit], a3⟩
  have hna : outcome g s0 σ P j post = nextA g s.buf.length (prevOf s.qit.prev) (σ.m - (j + 1)) σ P j post := by
    unfold outcome prevOf; rw [hprev', h0b]
  rw [← hna]
  rcases hloop.cases with ⟨r, s1, he, σ', P', j', pre', post', a1, a2, a3, a4, a5, a6⟩ | ⟨e, s1, he, a1, a2, a3⟩
  · refine Sat.bind_eq he ?_
    cases r with
    | none =>
      simp only at a6 ⊢
      obtain ⟨b0, b0', b1, b2, b3, b4, b5⟩ := a6
      exact Sat.pure ⟨σ', P', j', pre', post', a1, by rw [a3, h0b], by rw [a4, h0m], a5, b0, b0', a2, b1, b2, b3, b4, by rw [b5, hprev']⟩
    | some r =>
      obtain ⟨hd, a⟩ := r
      simp only at a6 ⊢
      obtain ⟨pre'', it, rfl, b2, rfl, rfl, b5, b6, b6', b7, b8, b9, b10⟩ := a6
      have := w.le_roundUp it.data.length
      refine Sat.bind_eq (get_run _) ?_
      rw [if_neg (by omega)]
      refine Sat.pure ⟨σ', P', j', pre'', post', a1, by rw [a3, h0b], by rw [a4, h0m], a5, it, a2, b2, rfl, rfl, b6, by rw [b6, ← h0b, ← a3]; exact b5, b7, by rw [b6]; exact b8, ?_, b10⟩
      rw [b9, hprev']
      cases hp : s.qit.prev <;> simp
  · refine Sat.of_err (bind_err he) ⟨by rw [a1, h0b], by rw [a2, h0m], ?_⟩
    rw [hprev', h0b] at a3
    exact a3

/-- A page without one of its items, which has `left` items behind it. -/
def PK.remove (left : Nat) : PK → PK
  | .used c its f => .used c (its.modify (its.length - (left + 1)) fun it => { it with hdr := { it.hdr with crc := 0#32 } }) f
  | pk => pk

omit w in
theorem remove_eq (c : Bool) (pre post : List It) (it : It) (f : Nat) :
    PK.remove post.length (.used c (pre ++ it :: post) f) =
      .used c (pre ++ { it with hdr := { it.hdr with crc := 0#32 } } :: post) f := by
  unfold PK.remove
  simp only [PK.used.injEq, true_and, and_true]
  have h1 : (pre ++ it :: post).length - (post.length + 1) = pre.length := by simp
  rw [h1]
  have : ∀ (l : List It), (l ++ it :: post).modify l.length (fun it => { it with hdr := { it.hdr with crc := 0#32 } }) =
      l ++ { it with hdr := { it.hdr with crc := 0#32 } } :: post := by
    intro l
    induction l with
    | nil => rfl
    | cons a l ih => simp only [List.cons_append, List.length_cons, List.modify_succ_cons, ih]
  exact this pre

/-- The pages after popping. -/
def popP (g : Geo) (σ : Shape) (P : Nat → PK) (j left : Nat) : Nat → PK :=
  upd P (ringPage g.pageCount σ.o j) ((P (ringPage g.pageCount σ.o j)).remove left)

/-- Removing the item `iter.next` gave. -/
theorem entryPop_sat {s : St K} {j : Nat} {pre post : List It} {it : It} (h : QG md g s σ P) (hmd : md.OK g) (hnp : md.np = false)
    (hi : IterAt g s.qit σ P j (pre ++ [it]) post) (hpres : it.present = true) :
    Sat (Queue.entryPop g it.hdr it.addr) s
      (fun _ s' => ∃ P' it', QG md g s' σ P' ∧ IterAt g s'.qit σ P' j (pre ++ [it']) post ∧ s'.buf = s.buf ∧ s'.mit = s.mit ∧
        s'.cache.dirty = false ∧ passed g.pageCount σ P' j (pre ++ [it']) = passed g.pageCount σ P j pre ∧
        ahead g.pageCount σ P' j post = ahead g.pageCount σ P j post ∧
        s'.qit.prev = (if s.qit.prev = .allButCurrentPopped then .allPopped else s.qit.prev) ∧
        P' = popP g σ P j post.length)
      (fun e s' => e = .shutoff ∧ md.cf = false ∧ s'.buf = s.buf ∧ s'.mit = s.mit ∧ ∃ P', QI md g s' σ P' ∧
        (content g.pageCount σ P' = passed g.pageCount σ P j pre ++ ahead g.pageCount σ P j post ∨
         content g.pageCount σ P' = content g.pageCount σ P)) := by
  have hj := hi.j_lt_n w h
  have wf := h.good.fs.wf
  have ho := wf.o_lt
  have hml := wf.m_le
  have hl := ringPage_lt ho hj
  have hits := hi.its
  obtain ⟨hm, c, f, hpk⟩ : j < σ.m ∧ ∃ c f, P (ringPage g.pageCount σ.o j) = .used c (pre ++ it :: post) f := by
    rcases page_kind w h hi.corr hj with ⟨hm, c, its, f, hpk⟩ | ⟨hm, hb⟩
    · refine ⟨hm, c, f, ?_⟩
      rw [hpk] at hits ⊢
      simp only [PK.its] at hits
      rw [hits]; simp
    · rw [hb] at hits; simp [PK.its] at hits
  have hlow : it.hdr.crc.setWidth 8 ≠ 0#8 := by
    have := of_decide_eq_true hpres
    rw [← this]
    exact (Props.stored_checksum_low_byte it.data).2
  have hcon : ∀ x : It, content g.pageCount σ (upd P (ringPage g.pageCount σ.o j) (.used c (pre ++ x :: post) f)) =
      passed g.pageCount σ P j pre ++ (if x.present then [x.data] else []) ++ ahead g.pageCount σ P j post := by
    intro x
    rw [content_upd wf hm]
    unfold passed ahead
    simp only [PK.its, datas_append, datas_cons]
    simp
  have hseg : ∀ pk, seg g.pageCount σ.o (upd P (ringPage g.pageCount σ.o j) pk) 0 j = seg g.pageCount σ.o P 0 j := by
    intro pk
    apply seg_upd
    intro k _ h2 he
    have := ringPage_inj ho (by omega) (by omega) he
    omega
  have hseg2 : ∀ pk, seg g.pageCount σ.o (upd P (ringPage g.pageCount σ.o j) pk) (j + 1) (σ.m - (j + 1)) =
      seg g.pageCount σ.o P (j + 1) (σ.m - (j + 1)) := by
    intro pk
    apply seg_upd
    intro k h1 h2 he
    have := ringPage_inj ho (by omega) (by omega) he
    omega
  unfold Queue.entryPop
  refine Sat.bind_eq (setIter_run _ _) ?_
  generalize hs0 : ({ s with qit := if s.qit.prev = .allButCurrentPopped then { s.qit with prev := .allPopped } else s.qit } : St K) = s0
  have h0q : s0.qit.next = s.qit.next ∧ s0.qit.oldest = s.qit.oldest ∧
      s0.qit.prev = (if s.qit.prev = .allButCurrentPopped then .allPopped else s.qit.prev) := by
    rw [← hs0]; simp only; split <;> exact ⟨rfl, rfl, rfl⟩
  have h0b : s0.buf = s.buf := by rw [← hs0]
  have h0m : s0.mit = s.mit := by rw [← hs0]
  have h0 : QG md g s0 σ P := h.cong (by rw [← hs0]) (by rw [← hs0])
  rcases (removeItem w h0.good hmd hnp hl hpk hlow).cases with ⟨_, s1, he1, hf1, her1, _, hg1⟩ | ⟨e, s1, he1, rfl, hf1, her1, k, hD⟩
  · refine Sat.bind_eq he1 ?_
    have hdead : It.present { it with hdr := { it.hdr with crc := 0#32 } } = false := erased_not_present rfl
    have hq1 : QG md g s1 σ (upd P (ringPage g.pageCount σ.o j)
        (.used c (pre ++ { it with hdr := { it.hdr with crc := 0#32 } } :: post) f)) := by
      refine ⟨hg1, h.ok.upd (by simp) ?_, by rw [her1]; exact h0.log⟩
      intro hcf hdm x hx
      simp only [PK.its, List.mem_append, List.mem_cons] at hx
      rcases hx with hx | rfl | hx
      · exact h.ok.whole hcf hdm _ hl x (by rw [hpk]; simp [PK.its, hx])
      · exact Or.inl rfl
      · exact h.ok.whole hcf hdm _ hl x (by rw [hpk]; simp [PK.its, hx])
    rcases (unmark_sat hq1).cases with ⟨_, s2, he2, hq2, hf2, _, hd2⟩ | ⟨_, _, _, h'⟩
    rotate_left; · exact h'.elim
    have hqq : s2.qit = s0.qit := by rw [hf2.qit, hf1.qit]
    refine Sat.of_ok he2 ⟨_, { it with hdr := { it.hdr with crc := 0#32 } }, hq2, ?_, by rw [hf2.buf, hf1.buf, h0b],
      by rw [hf2.mit, hf1.mit, h0m], hd2, ?_, ?_, by rw [hqq]; exact h0q.2.2,
      by unfold popP; rw [hpk, remove_eq]⟩
    · refine ⟨hi.corr, hi.j_lt, by rw [upd_same]; simp [PK.its], ?_, ?_, ?_, ?_, ?_⟩
      · rw [hqq, h0q.1]
        have := hi.pos
        split at this
        · rw [iterAddr_snoc] at this ⊢; exact this
        · exact this
      · rw [hqq, h0q.2.2]
        intro h'
        apply hi.prev
        intro h''
        rw [h''] at h'
        simp at h'
      · rw [hqq, h0q.2.2]
        intro h' x hx
        rcases List.mem_append.1 hx with hx | hx
        · split at h'
          · rename_i hb
            obtain ⟨pre', cur, he, hall⟩ := hi.butCur hb
            have := List.append_inj' he rfl
            exact hall x (by rw [← this.1]; exact hx)
          · exact hi.popped h' x (by simp [hx])
        · rw [List.mem_singleton.1 hx]; exact hdead
      · rw [hqq, h0q.2.2]
        intro h'
        split at h'
        · simp at h'
        · rename_i hn; exact absurd h' hn
      · rw [hqq, h0q.2.1]; exact hi.oldest
    · unfold passed
      rw [hseg, datas_append, datas_cons, hdead]; simp
    · unfold ahead; rw [hseg2]
  · refine Sat.of_err (bind_err he1) ⟨rfl, hD.crash, by rw [hf1.buf, h0b], by rw [hf1.mit, h0m], _, hD.qi (h.ok.upd (by simp) ?_), ?_⟩
    · intro hcf; rw [hD.crash] at hcf; simp at hcf
    · rw [hcon]
      cases hpr : It.present (clearIt k it) with
      | false => left; simp
      | true =>
        right
        rw [hi.content w h]
        unfold passed
        rw [datas_append, datas_cons, hpres]
        simp [clearIt]

/-- A new iterator. -/
theorem iterNew_sat {s : St K} (h : QI md g s σ P) :
    Sat (Queue.iterNew g) s
      (fun _ s' => ∃ σ' P' pre post, QG md g s' σ' P' ∧ IterAt g s'.qit σ' P' 0 pre post ∧ s'.buf = s.buf ∧ s'.mit = s.mit ∧
        passed g.pageCount σ' P' 0 pre = [] ∧ ahead g.pageCount σ' P' 0 post = content g.pageCount σ P ∧
        s'.qit.prev = .allPopped ∧ (σ.corr = false → σ' = σ ∧ P' = P))
      (fun e s' => e = .shutoff ∧ md.cf = false ∧ s'.buf = s.buf ∧ s'.mit = s.mit ∧ ∃ σ' P', QI md g s' σ' P' ∧
        content g.pageCount σ' P' = content g.pageCount σ P) := by
  have inner : ∀ {s : St K} {σ : Shape} {P : Nat → PK}, QI md g s σ P →
      Sat (Queue.findStart g) s
        (fun a s' => ∃ pre post, QG md g s' σ P ∧ Still s s' ∧ σ.corr = false ∧ (P σ.o).its = pre ++ post ∧
          (∀ x ∈ pre, x.hdr.crc = 0#32) ∧ a = iterAddr g σ.o pre)
        (fun e s' => e = .corrupted ∧ σ.corr = true ∧ QI md g s' σ P ∧ Still s s') := by
    intro s σ P h
    unfold Queue.findStart
    rcases (checkDirty_sat h).cases with ⟨_, s0, he0, h0, hst0, _, _, _⟩ | ⟨_, _, _, h'⟩
    rotate_left; · exact h'.elim
    refine Sat.bind_eq he0 ?_
    rcases (findOldest_sat w h0.good).cases with ⟨r, s1, he1, rfl, hc, hg1, hs1⟩ | ⟨e, s1, he1, rfl, hc, hg1, hs1⟩
    · refine Sat.bind_eq he1 (Sat.bind_eq (get_run _) ?_)
      have h1 := hg1.same h0.ok hs1 h0.log
      have hst := hst0.trans hs1.still
      cases hae : s1.cache.pp.afterErased σ.o with
      | none => exact Sat.pure ⟨[], (P σ.o).its, h1, hst, hc, rfl, by simp, rfl⟩
      | some p =>
        obtain ⟨c, pre, it, post, f, hpk, hz, rfl⟩ := (h1.good.pp σ.o h1.good.fs.wf.o_lt).1 p hae
        refine Sat.pure ⟨pre ++ [it], post, h1, hst, hc, by rw [hpk]; simp [PK.its], hz, ?_⟩
        rw [iterAddr_snoc]; rfl
    · exact Sat.of_err (bind_err he1) ⟨rfl, hc, (hg1.same h0.ok hs1 h0.log).qi, hst0.trans hs1.still⟩
  unfold Queue.iterNew
  have hstart : Sat (withRepair (Queue.findStart g) (Queue.tryRepair g)) s
      (fun a s' => ∃ σ' P' pre post, QG md g s' σ' P' ∧ Still s s' ∧ σ'.corr = false ∧ (P' σ'.o).its = pre ++ post ∧
        (∀ x ∈ pre, x.hdr.crc = 0#32) ∧ a = iterAddr g σ'.o pre ∧ content g.pageCount σ' P' = content g.pageCount σ P ∧
        (σ.corr = false → σ' = σ ∧ P' = P))
      (fun e s' => e = .shutoff ∧ md.cf = false ∧ Still s s' ∧ ∃ σ' P', QI md g s' σ' P' ∧
        content g.pageCount σ' P' = content g.pageCount σ P) := by
    refine withRepair_sat (C := fun s1 => σ.corr = true ∧ QI md g s1 σ P ∧ Still s s1) ?_ ?_
    · refine (inner h).mono ?_ ?_
      · rintro a s' ⟨pre, post, h1, h2, h3, h4, h5, h6⟩
        exact ⟨σ, P, pre, post, h1, h2, h3, h4, h5, h6, rfl, fun _ => ⟨rfl, rfl⟩⟩
      · rintro e s' ⟨h1, hc, h2, h3⟩
        exact Or.inr ⟨h1, hc, h2, h3⟩
    · rintro s1 ⟨hcc, h1, hst1⟩
      rcases (tryRepair_sat w h1).cases with ⟨_, s2, he2, hst2, σ2, P2, h2, hc2, hcon2, _⟩ | ⟨e, s2, he2, rfl, hcf, hst2, P2, σ2, h2, hcon2⟩
      · refine Sat.bind_eq he2 ?_
        refine (inner h2.qi).mono ?_ ?_
        · rintro a s' ⟨pre, post, a1, a2, a3, a4, a5, a6⟩
          exact ⟨σ2, P2, pre, post, a1, (hst1.trans hst2).trans a2, a3, a4, a5, a6, hcon2,
            fun h => by rw [hcc] at h; cases h⟩
        · rintro e s' ⟨_, hc, _⟩
          rw [hc2] at hc; simp at hc
      · exact Sat.of_err (bind_err he2) ⟨rfl, hcf, hst1.trans hst2, σ2, P2, h2, hcon2⟩
  rcases hstart.cases with ⟨a, s1, he1, σ1, P1, pre, post, h1, hst1, hc1, hits, hz, ha, hcon, hsame⟩ | ⟨e, s1, he1, rfl, hcf, hst1, σ1, P1, h1, hcon⟩
  · refine Sat.bind_eq he1 (Sat.of_ok (modify_run _ _) ?_)
    have ho := h1.good.fs.wf.o_lt
    have hq : QG md g { s1 with qit := ⟨.address a, .allPopped, g.pageIndex a⟩ } σ1 P1 := h1.cong rfl rfl
    have hI0 : IterAt g ⟨.address a, .allPopped, σ1.o⟩ σ1 P1 0 pre post := by
      refine ⟨hc1, by omega, by rw [ringPage_zero ho]; exact hits, ?_, fun _ => rfl, fun _ x hx => erased_not_present (hz x hx),
        fun h => by simp at h, ho, Or.inl ?_⟩
      · simp only; rw [ringPage_zero ho]; exact ha
      · simp [ringPos]
    obtain ⟨f, _, _, b1, b2⟩ := hI0.layout w hq
    rw [ringPage_zero ho, ← ha] at b1 b2
    have hpo := page_order w σ1.o
    have hwp := w.word_pos
    have hidx : g.pageIndex a = σ1.o := by apply w.pageIndex_of <;> omega
    have hpas : passed g.pageCount σ1 P1 0 pre = [] := by
      unfold passed
      rw [datas_eq_nil (fun x hx => erased_not_present (hz x hx))]; rfl
    refine ⟨σ1, P1, pre, post, hq, by rw [hidx]; exact hI0, hst1.buf, hst1.mit, hpas, ?_, rfl, hsame⟩
    have := hI0.content w hq
    rw [hpas, List.nil_append] at this
    rw [← this, hcon]
  · exact Sat.of_err (bind_err he1) ⟨rfl, hcf, hst1.buf, hst1.mit, σ1, P1, h1, hcon⟩

/-- The first item. -/
abbrev startA (g : Geo) (σ : Shape) (P : Nat → PK) (blen : Nat) := nextA g blen .allPopped (σ.m - 1) σ P 0 (P σ.o).its

/-- All of `pop`. -/
def popA (g : Geo) (σ : Shape) (P : Nat → PK) (blen : Nat) : Except Err (Option (List Byte)) × Shape × (Nat → PK) :=
  match startA g σ P blen with
  | (.ok none, σ', P', _, _) => (.ok none, σ', P')
  | (.ok (some it), σ', P', j, rest) => (.ok (some it.data), σ', popP g σ' P' j rest.length)
  | (.error e, σ', P', _, _) => (.error e, σ', P')

/-- All of `peek`. -/
def peekA (g : Geo) (σ : Shape) (P : Nat → PK) (blen : Nat) : Except Err (Option (List Byte)) × Shape × (Nat → PK) :=
  match startA g σ P blen with
  | (.ok none, σ', P', _, _) => (.ok none, σ', P')
  | (.ok (some it), σ', P', _, _) => (.ok (some it.data), σ', P')
  | (.error e, σ', P', _, _) => (.error e, σ', P')

theorem start_eq {s : St K} {pre post : List It} (h : QG md g s σ P) (hi : IterAt g s.qit σ P 0 pre post)
    (hpas : passed g.pageCount σ P 0 pre = []) (hpv : s.qit.prev = .allPopped) :
    nextA g s.buf.length (prevOf s.qit.prev) (σ.m - (0 + 1)) σ P 0 post = startA g σ P s.buf.length := by
  have h1 : datas pre = [] := by simpa [passed] using hpas
  have h2 := hi.its
  rw [ringPage_zero h.good.fs.wf.o_lt] at h2
  unfold startA
  rw [h2, nextA_skip h1, hpv]
  rfl

/-- `pop`. -/
theorem pop_sat {s : St K} (h : QI md g s σ P) (hmd : md.OK g) (hnp : md.np = false) :
    Sat (Queue.pop g) s
      (fun r s' => ∃ σ' P', QG md g s' σ' P' ∧ s'.cache.dirty = false ∧ s'.buf.length = s.buf.length ∧ s'.mit = s.mit ∧
        match r with
        | some d => content g.pageCount σ P = d :: content g.pageCount σ' P' ∧ g.roundUp d.length ≤ s.buf.length ∧
            (σ.corr = false → popA g σ P s.buf.length = (.ok (some d), σ', P'))
        | none => content g.pageCount σ P = [] ∧ content g.pageCount σ' P' = [] ∧ σ'.m ≤ 1 ∧ σ'.corr = false ∧
            (σ.corr = false → popA g σ P s.buf.length = (.ok none, σ', P')))
      (fun e s' => s'.buf.length = s.buf.length ∧ s'.mit = s.mit ∧ ∃ σ' P', QI md g s' σ' P' ∧ (
        (∃ n, e = .bufferTooSmall n ∧ (s.buf.length < n ∧ n + g.hl + 2 * g.word ≤ g.eraseSize) ∧ content g.pageCount σ' P' = content g.pageCount σ P ∧
          (md.cf = true → md.dmg = false → (∃ d rest, content g.pageCount σ P = d :: rest ∧ n = g.roundUp d.length) ∧
            popA g σ P s.buf.length = (.error e, σ', P'))) ∨
        (e = .shutoff ∧ md.cf = false ∧ (content g.pageCount σ' P' = content g.pageCount σ P ∨
          ∃ d, content g.pageCount σ P = d :: content g.pageCount σ' P')))) := by
  unfold Queue.pop
  rcases (iterNew_sat w h).cases with ⟨_, s1, he1, σ1, P1, pre1, post1, h1, hi1, hb1, hm1, hpas1, hah1, hpv1, heq⟩ |
    ⟨e, s1, he1, rfl, hcf, hb1, hm1, σ1, P1, h1, hcon⟩
  rotate_left
  · exact Sat.of_err (bind_err he1) ⟨by rw [hb1], hm1, σ1, P1, h1, Or.inr ⟨rfl, hcf, Or.inl hcon⟩⟩
  refine Sat.bind_eq he1 ?_
  have hnext := iterNext_sat w h1.qi hi1
  rw [hpas1, hah1, start_eq w h1 hi1 hpas1 hpv1, hb1] at hnext
  rcases hnext.cases with ⟨r, s2, he2, σ2, P2, j2, pre2, post2, h2, hb2, hm2, hd2, hR⟩ | ⟨e, s2, he2, hb2, hm2, hE⟩
  rotate_left
  · refine Sat.of_err (bind_err he2) ⟨by rw [hb2, hb1], by rw [hm2, hm1], ?_⟩
    rcases hE with ⟨σ2, P2, j2, pre2, post2, n, h2, hi2, hpas2, hah2, _, rfl, hlt, hcf⟩ | ⟨rfl, hcf, σ2, P2, h2, hcon⟩
    · refine ⟨σ2, P2, h2.qi, Or.inl ⟨n, rfl, by rw [← hb1]; exact hlt, ?_, fun hc hdm => ⟨(hcf hc hdm).1, ?_⟩⟩⟩
      · rw [hi2.content w h2, hpas2, hah2]; rfl
      · obtain ⟨rfl, rfl⟩ := heq (h.fs.torn_free hc)
        unfold popA; rw [(hcf hc hdm).2]
    · exact ⟨σ2, P2, h2, Or.inr ⟨rfl, hcf, Or.inl hcon⟩⟩
  refine Sat.bind_eq he2 ?_
  cases r with
  | none =>
    simp only at hR ⊢
    obtain ⟨hna, _, hi2, hnil, hpas2, hah2, hmle, hpv2⟩ := hR
    rw [hpv1, if_pos rfl] at hpv2
    have hj0 : j2 = 0 := hi2.prev (by rw [hpv2]; simp)
    refine Sat.pure ⟨σ2, P2, h2, hd2, by rw [hb2, hb1], by rw [hm2, hm1], hnil, ?_, by omega, hi2.corr, ?_⟩
    · rw [hi2.content w h2, hpas2, hah2]; rfl
    · intro hc
      obtain ⟨rfl, rfl⟩ := heq hc
      unfold popA; rw [hna]
  | some r =>
    obtain ⟨hd, a, d⟩ := r
    simp only at hR ⊢
    obtain ⟨it, hi2, hpres, rfl, rfl, rfl, hbig, hpas2, hah2, hpv2, hna⟩ := hR
    rcases (entryPop_sat w h2 hmd hnp hi2 hpres).cases with ⟨_, s3, he3, P3, it', h3, hi3, hb3, hm3, hd3, hpas3, hah3, _, hP3⟩ |
      ⟨e, s3, he3, rfl, hcf, hb3, hm3, P3, h3, hcon⟩
    · refine Sat.bind_eq he3 (Sat.pure ⟨σ2, P3, h3, hd3, by rw [hb3, hb2, hb1], by rw [hm3, hm2, hm1], ?_⟩)
      simp only
      rw [hi3.content w h3, hpas3, hpas2, hah3, ← hah2]
      refine ⟨rfl, by rw [← hb1]; exact hbig, fun hc => ?_⟩
      obtain ⟨rfl, rfl⟩ := heq hc
      unfold popA; rw [hna, hP3]
    · refine Sat.of_err (bind_err he3) ⟨by rw [hb3, hb2, hb1], by rw [hm3, hm2, hm1], σ2, P3, h3, Or.inr ⟨rfl, hcf, ?_⟩⟩
      rcases hcon with hcon | hcon
      · right
        refine ⟨it.data, ?_⟩
        rw [hcon, hpas2, ← hah2]; rfl
      · left
        rw [hcon, hi2.content w h2, ← hah2]
        have : passed g.pageCount σ2 P2 j2 (pre2 ++ [it]) = [it.data] := by
          have h' : passed g.pageCount σ2 P2 j2 (pre2 ++ [it]) = passed g.pageCount σ2 P2 j2 pre2 ++ [it.data] := by
            unfold passed; rw [datas_append, datas_cons, hpres]; simp
          rw [h', hpas2]; rfl
        rw [this]; rfl

/-- `peek`. -/
theorem peek_sat {s : St K} (h : QI md g s σ P) :
    Sat (Queue.peek g) s
      (fun r s' => ∃ σ' P', QG md g s' σ' P' ∧ s'.cache.dirty = false ∧ s'.buf.length = s.buf.length ∧ s'.mit = s.mit ∧
        content g.pageCount σ' P' = content g.pageCount σ P ∧ (σ.corr = false → peekA g σ P s.buf.length = (.ok r, σ', P')) ∧
        r = (content g.pageCount σ P).head? ∧
        ∀ d, r = some d → g.roundUp d.length ≤ s.buf.length)
      (fun e s' => s'.buf.length = s.buf.length ∧ s'.mit = s.mit ∧ ∃ σ' P', QI md g s' σ' P' ∧
        content g.pageCount σ' P' = content g.pageCount σ P ∧ (
        (∃ n, e = .bufferTooSmall n ∧ (s.buf.length < n ∧ n + g.hl + 2 * g.word ≤ g.eraseSize) ∧
          (md.cf = true → md.dmg = false → (∃ d rest, content g.pageCount σ P = d :: rest ∧ n = g.roundUp d.length) ∧
            peekA g σ P s.buf.length = (.error e, σ', P'))) ∨
        (e = .shutoff ∧ md.cf = false))) := by
  unfold Queue.peek
  rcases (iterNew_sat w h).cases with ⟨_, s1, he1, σ1, P1, pre1, post1, h1, hi1, hb1, hm1, hpas1, hah1, hpv1, heq⟩ |
    ⟨e, s1, he1, rfl, hcf, hb1, hm1, σ1, P1, h1, hcon⟩
  rotate_left
  · exact Sat.of_err (bind_err he1) ⟨by rw [hb1], hm1, σ1, P1, h1, hcon, Or.inr ⟨rfl, hcf⟩⟩
  refine Sat.bind_eq he1 ?_
  have hnext := iterNext_sat w h1.qi hi1
  rw [hpas1, hah1, start_eq w h1 hi1 hpas1 hpv1, hb1] at hnext
  rcases hnext.cases with ⟨r, s2, he2, σ2, P2, j2, pre2, post2, h2, hb2, hm2, hd2, hR⟩ | ⟨e, s2, he2, hb2, hm2, hE⟩
  rotate_left
  · refine Sat.of_err (bind_err he2) ⟨by rw [hb2, hb1], by rw [hm2, hm1], ?_⟩
    rcases hE with ⟨σ2, P2, j2, pre2, post2, n, h2, hi2, hpas2, hah2, _, rfl, hlt, hcf⟩ | ⟨rfl, hcf, σ2, P2, h2, hcon⟩
    · refine ⟨σ2, P2, h2.qi, ?_, Or.inl ⟨n, rfl, by rw [← hb1]; exact hlt, fun hc hdm => ⟨(hcf hc hdm).1, ?_⟩⟩⟩
      · rw [hi2.content w h2, hpas2, hah2]; rfl
      · obtain ⟨rfl, rfl⟩ := heq (h.fs.torn_free hc)
        unfold peekA; rw [(hcf hc hdm).2]
    · exact ⟨σ2, P2, h2, hcon, Or.inr ⟨rfl, hcf⟩⟩
  refine Sat.bind_eq he2 ?_
  cases r with
  | none =>
    simp only at hR ⊢
    obtain ⟨hna, _, hi2, hnil, hpas2, hah2, hmle, hpv2⟩ := hR
    refine Sat.pure ⟨σ2, P2, h2, hd2, by rw [hb2, hb1], by rw [hm2, hm1], ?_, fun hc => ?_, by rw [hnil]; rfl, by simp⟩
    · rw [hi2.content w h2, hpas2, hah2, hnil]; rfl
    · obtain ⟨rfl, rfl⟩ := heq hc
      unfold peekA; rw [hna]
  | some r =>
    obtain ⟨hd, a, d⟩ := r
    simp only at hR ⊢
    obtain ⟨it, hi2, hpres, rfl, rfl, rfl, hbig, hpas2, hah2, hpv2, hna⟩ := hR
    refine Sat.pure ⟨σ2, P2, h2, hd2, by rw [hb2, hb1], by rw [hm2, hm1], ?_, fun hc => ?_, by rw [← hah2]; rfl, by rintro _ ⟨⟩; rw [← hb1]; exact hbig⟩
    · rw [hi2.content w h2, ← hah2]
      have h' : passed g.pageCount σ2 P2 j2 (pre2 ++ [it]) = passed g.pageCount σ2 P2 j2 pre2 ++ [it.data] := by
        unfold passed; rw [datas_append, datas_cons, hpres]; simp
      rw [h', hpas2]; rfl
    · obtain ⟨rfl, rfl⟩ := heq hc
      unfold peekA; rw [hna]

end

end SeqStorage
