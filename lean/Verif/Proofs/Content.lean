import Verif.Proofs.Find
/-
The contents of a ring of pages as a list of byte strings.
-/

set_option linter.unusedSectionVars false

namespace SeqStorage
open M

variable {K : Type} [DecidableEq K]
variable {md : Mode} {g : Geo} {σ : Shape} {P P' : Nat → PK}

/-- The data of the items that a reader accepts. -/
def datas (its : List It) : List (List Byte) := (its.filter It.present).map It.data

@[simp] theorem datas_nil : datas [] = [] := rfl
theorem datas_append (a b : List It) : datas (a ++ b) = datas a ++ datas b := by simp [datas]
theorem datas_cons (x : It) (b : List It) : datas (x :: b) = (if x.present then [x.data] else []) ++ datas b := by
  unfold datas; cases h : x.present <;> simp [h]

theorem datas_eq_nil {its : List It} (h : ∀ x ∈ its, x.present = false) : datas its = [] := by
  unfold datas
  rw [List.map_eq_nil_iff, List.filter_eq_nil_iff]
  intro x hx; rw [h x hx]; simp

theorem flatMap_congr' {α β : Type} {l : List α} {f h : α → List β} (H : ∀ x ∈ l, f x = h x) :
    l.flatMap f = l.flatMap h := by
  induction l with
  | nil => rfl
  | cons a l ih =>
    rw [List.flatMap_cons, List.flatMap_cons, H a (by simp), ih (fun x hx => H x (by simp [hx]))]

/-- `len` pages from distance `a` on. -/
def seg (n o : Nat) (P : Nat → PK) (a len : Nat) : List (List Byte) :=
  (List.range' a len).flatMap fun j => datas (P (ringPage n o j)).its

/-- Everything stored, oldest first. -/
def content (n : Nat) (σ : Shape) (P : Nat → PK) : List (List Byte) := seg n σ.o P 0 σ.m

theorem seg_add (n o a k l : Nat) : seg n o P a (k + l) = seg n o P a k ++ seg n o P (a + k) l := by
  unfold seg
  rw [← List.range'_append_1, List.flatMap_append]

@[simp] theorem seg_zero (n o a : Nat) : seg n o P a 0 = [] := rfl
theorem seg_one (n o a : Nat) : seg n o P a 1 = datas (P (ringPage n o a)).its := by
  simp [seg, List.range'_one]

theorem seg_congr {n o a len : Nat} (h : ∀ j, a ≤ j → j < a + len → datas (P' (ringPage n o j)).its = datas (P (ringPage n o j)).its) :
    seg n o P' a len = seg n o P a len := by
  unfold seg
  apply flatMap_congr'
  intro j hj
  rw [List.mem_range'_1] at hj
  exact h j hj.1 hj.2

/-- One page of a segment picked out. -/
theorem seg_pick {n o len j : Nat} (hj : j < len) :
    seg n o P 0 len = seg n o P 0 j ++ (datas (P (ringPage n o j)).its ++ seg n o P (j + 1) (len - (j + 1))) := by
  have h1 : len = j + (1 + (len - (j + 1))) := by omega
  conv => lhs; rw [h1, seg_add, seg_add, seg_one]
  simp

theorem seg_upd {n o a len i : Nat} {pk : PK} (h : ∀ j, a ≤ j → j < a + len → ringPage n o j ≠ i) :
    seg n o (upd P i pk) a len = seg n o P a len :=
  seg_congr (fun j h1 h2 => by rw [upd_ne (h j h1 h2)])

/-- Changing one page changes the contents there only. -/
theorem content_upd {j : Nat} (wf : σ.WF g.pageCount) (hj : j < σ.m) (pk : PK) :
    content g.pageCount σ (upd P (ringPage g.pageCount σ.o j) pk) =
      seg g.pageCount σ.o P 0 j ++ (datas pk.its ++ seg g.pageCount σ.o P (j + 1) (σ.m - (j + 1))) := by
  have hm := wf.m_le
  unfold content
  rw [seg_pick hj, upd_same, seg_upd, seg_upd]
  · intro k h1 h2 he
    have := ringPage_inj wf.o_lt (by omega) (by omega) he
    omega
  · intro k h1 h2 he
    have := ringPage_inj wf.o_lt (by omega) (by omega) he
    omega

theorem content_pick {j : Nat} (hj : j < σ.m) : content g.pageCount σ P =
    seg g.pageCount σ.o P 0 j ++ (datas (P (ringPage g.pageCount σ.o j)).its ++
      seg g.pageCount σ.o P (j + 1) (σ.m - (j + 1))) := seg_pick hj

/-- Pages that are not in use do not matter. -/
theorem content_upd_other {i : Nat} (h : ∀ j, j < σ.m → ringPage g.pageCount σ.o j ≠ i) (pk : PK) :
    content g.pageCount σ (upd P i pk) = content g.pageCount σ P :=
  seg_upd (fun j _ h2 => h j (by omega))

theorem front_eq (hp : σ.part = true) : σ.front g.pageCount = ringPage g.pageCount σ.o (σ.m - 1) := by
  unfold Shape.front; rw [hp, if_pos rfl]

theorem front_eq_open (hp : σ.part = false) : σ.front g.pageCount = ringPage g.pageCount σ.o σ.m := by
  unfold Shape.front; rw [hp]; simp

/-- Changing the page that is written to. -/
theorem content_upd_front (wf : σ.WF g.pageCount) (hp : σ.part = true) {its : List It} {pk : PK}
    (hpk : (P (σ.front g.pageCount)).its = its) {new : List (List Byte)} (hn : datas pk.its = datas its ++ new) :
    content g.pageCount σ (upd P (σ.front g.pageCount) pk) = content g.pageCount σ P ++ new := by
  have h1 := wf.part_pos hp
  have hj : σ.m - 1 < σ.m := by omega
  rw [front_eq hp] at *
  rw [content_upd wf hj, content_pick hj, hn, hpk]
  have : σ.m - (σ.m - 1 + 1) = 0 := by omega
  simp [this]

theorem content_openFront (wf : σ.WF g.pageCount) (hp : σ.part = false) {pk : PK} (hd : datas pk.its = []) :
    content g.pageCount σ.openFront (upd P (σ.front g.pageCount) pk) = content g.pageCount σ P := by
  have hm := wf.m_le
  have hmn : σ.m < g.pageCount := by
    rcases Nat.lt_or_ge σ.m g.pageCount with h | h
    · exact h
    · have := (wf.full (by omega)).1; rw [hp] at this; simp at this
  rw [front_eq_open hp]
  unfold content
  simp only [Shape.openFront]
  rw [seg_add, seg_one, Nat.zero_add, upd_same, hd, List.append_nil]
  apply seg_upd
  intro j _ h2 he
  have := ringPage_inj wf.o_lt (by omega) (by omega) he
  omega

theorem content_closeFront (wf : σ.WF g.pageCount) (hp : σ.part = true) {its : List It} {f f' : Nat}
    (hpk : P (σ.front g.pageCount) = .used false its f) :
    content g.pageCount σ.closeFront (upd P (σ.front g.pageCount) (.used true its f')) = content g.pageCount σ P := by
  have := content_upd_front wf hp (P := P) (its := its) (pk := .used true its f') (by rw [hpk]; rfl) (new := []) (by simp [PK.its])
  rw [List.append_nil] at this
  rw [← this]; rfl

theorem content_dropOldest (wf : σ.WF g.pageCount) (hm : 2 ≤ σ.m) (pk : PK) :
    content g.pageCount σ P = datas (P σ.o).its ++
      content g.pageCount (σ.dropOldest g.pageCount) (upd P σ.o pk) := by
  have hml := wf.m_le
  have ho := wf.o_lt
  rw [content_pick (by omega : 0 < σ.m), ringPage_zero ho, seg_zero, List.nil_append]
  congr 1
  unfold content
  simp only [Shape.dropOldest, Nat.zero_add]
  unfold seg
  have : List.range' 1 (σ.m - 1) = (List.range' 0 (σ.m - 1)).map (· + 1) := by
    rw [show (fun x => x + 1) = (fun x => 1 + x) from by funext x; omega, List.map_add_range']
  rw [this, List.flatMap_map]
  apply flatMap_congr'
  intro j hj
  rw [List.mem_range'_1] at hj
  have hs := ringPage_shift ho (by omega : j + 1 < g.pageCount)
  rw [hs, upd_ne]
  intro he
  have h0 := ringPage_zero ho
  have := ringPage_inj ho (by omega) (by omega) (he.trans h0.symm)
  omega

theorem content_tearOldest (wf : σ.WF g.pageCount) (hm : 2 ≤ σ.m) (pk : PK) :
    content g.pageCount σ P = datas (P σ.o).its ++
      content g.pageCount (σ.tearOldest g.pageCount) (upd P σ.o pk) :=
  content_dropOldest wf hm pk

theorem content_fixCorr (wf : σ.WF g.pageCount) (hc : σ.corr = true) (pk : PK) :
    content g.pageCount σ.fixCorr (upd P (σ.torn g.pageCount) pk) = content g.pageCount σ P := by
  have ht := Shape.st_err.1 (torn_st (g := g) wf hc)
  have hml := wf.m_le
  have : content g.pageCount σ.fixCorr (upd P (σ.torn g.pageCount) pk) =
    content g.pageCount σ (upd P (σ.torn g.pageCount) pk) := rfl
  rw [this]
  apply content_upd_other
  intro j hj he
  rw [← he, ringPos_page wf.o_lt (by omega)] at ht
  omega

end SeqStorage
