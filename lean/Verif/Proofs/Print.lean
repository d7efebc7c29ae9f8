import Verif.Model.Print
import Verif.Proofs.MapAll
import Verif.Proofs.MapScan
import Verif.Proofs.Safe
import Verif.Proofs.Fit
/-
What the listing shows, on any flash.
-/

set_option linter.unusedSectionVars false

namespace SeqStorage
open M

variable {K : Type} [DecidableEq K] {md : Mode} {g : Geo} {σ : Shape} {P : Nat → PK}

/-- What a reader says of an item. -/
def It.kind (it : It) : MaybeItem :=
  if it.hdr.crc = 0#32 then .erased it.hdr else if it.present then .present it.hdr else .corrupted it.hdr

/-- The line for an item. -/
def It.line (g : Geo) (it : It) : ItemLine :=
  ⟨it.kind, it.addr, it.hdr.next g it.addr, if it.hdr.crc = 0#32 then [] else it.data⟩

/-- The items can be read into the buffer of the listing. -/
def Printable (g : Geo) (its : List It) : Prop := ∀ it ∈ its, it.hdr.crc ≠ 0#32 → g.roundUp it.hdr.len.toNat ≤ printBuf

section
variable (w : g.WF)
include w

theorem printLoop_run {i : Nat} (hi : i < g.pageCount) : ∀ {rounds a f : Nat} {its : List It} {s : St K},
    Layout false g s.fl.mem (g.dataEnd i) a its f → g.dataStart i ≤ a → g.word ∣ a → g.dataEnd i < a + rounds → 0 < rounds →
    s.buf.length = printBuf →
    (Printable g its → ∃ b, b.length = printBuf ∧
      printLoop g (g.dataEnd i) rounds a s = (.ok (its.map (It.line g)), { s with buf := b })) ∧
    (¬ Printable g its → ∃ b, printLoop g (g.dataEnd i) rounds a s = (.error .panic, { s with buf := b })) := by
  intro rounds
  induction rounds with
  | zero => intro a f its s _ _ _ _ h0; omega
  | succ r ih =>
    intro a f its s l ha hd hr h0 hb
    have hro := rounds_ok w i ha
    have ho := page_order w i
    have ht := traverse_run w s l hd (by omega) (page_stop w hi) (fun _ => false) hro.1 hro.2
    have hrun : printLoop g (g.dataEnd i) (r + 1) a s = (match (generalizing := false) its with
        | [] => (.ok [], s)
        | it :: _ => match readItem g it.hdr it.addr (g.dataEnd i) s with
          | (.error _, s1) => (.error .panic, s1)
          | (.ok item, s1) => match printLoop g (g.dataEnd i) r (it.hdr.next g it.addr) s1 with
            | (.ok rest, s2) => (.ok (⟨item, it.addr, it.hdr.next g it.addr, item.shownBytes s1.buf⟩ :: rest), s2)
            | (.error e, s2) => (.error e, s2)) := by
      conv => lhs; unfold printLoop
      rw [bind_ok (attempt_run _ _), ht]
      cases its with
      | nil => rfl
      | cons it post =>
        simp only [scanResult, List.dropWhile_cons, Bool.false_eq_true, if_false]
        rw [bind_ok (attempt_run _ _)]
        generalize readItem g it.hdr it.addr (g.dataEnd i) s = x
        obtain ⟨x, s1⟩ := x
        cases x with
        | error e => rfl
        | ok item =>
          dsimp only
          rw [bind_ok (get_run s1), bind_run]
          generalize printLoop g (g.dataEnd i) r (it.hdr.next g it.addr) s1 = y
          obtain ⟨y, s2⟩ := y
          cases y <;> rfl
    rw [hrun]
    clear hrun ht
    cases its with
    | nil => exact ⟨fun _ => ⟨s.buf, hb, rfl⟩, fun h => absurd (fun it hm => by simp at hm) h⟩
    | cons it post =>
      dsimp only
      obtain ⟨h1, h2, h3, h4⟩ := l.mem_item w (it := it) (by simp)
      have hdv := l.mem_dvd w hd (it := it) (by simp)
      have hfe : f ≤ g.dataEnd i := l.le_end w (by
        have := hdrAt_some_iff.1 h2
        omega) hd
      have hst := page_stop w hi
      have hn := Layout.next_gt w it.hdr it.addr
      have hnd := Layout.next_dvd w (h := it.hdr) hdv
      have hs : Layout false g s.fl.mem (g.dataEnd i) (it.hdr.next g it.addr) post f := Layout.suffix (pre := []) w l
      have hri := readItem_run w (e := g.dataEnd i) (h := it.hdr) s hdv (by omega) (by omega) (by omega)
      have step : ∀ (item : MaybeItem) (s1 : St K) (b1 : List Byte), readItem g it.hdr it.addr (g.dataEnd i) s = (.ok item, s1) →
          s1 = { s with buf := b1 } → b1.length = printBuf → (it.hdr.crc ≠ 0#32 → g.roundUp it.hdr.len.toNat ≤ printBuf) →
          (⟨item, it.addr, it.hdr.next g it.addr, item.shownBytes s1.buf⟩ : ItemLine) = it.line g →
          (Printable g (it :: post) → ∃ b, b.length = printBuf ∧
            (match readItem g it.hdr it.addr (g.dataEnd i) s with
              | (.error _, s1) => ((.error .panic, s1) : Except Err (List ItemLine) × St K)
              | (.ok item, s1) => match printLoop g (g.dataEnd i) r (it.hdr.next g it.addr) s1 with
                | (.ok rest, s2) => (.ok (⟨item, it.addr, it.hdr.next g it.addr, item.shownBytes s1.buf⟩ :: rest), s2)
                | (.error e, s2) => (.error e, s2)) = (.ok ((it :: post).map (It.line g)), { s with buf := b })) ∧
          (¬ Printable g (it :: post) → ∃ b, 
            (match readItem g it.hdr it.addr (g.dataEnd i) s with
              | (.error _, s1) => ((.error .panic, s1) : Except Err (List ItemLine) × St K)
              | (.ok item, s1) => match printLoop g (g.dataEnd i) r (it.hdr.next g it.addr) s1 with
                | (.ok rest, s2) => (.ok (⟨item, it.addr, it.hdr.next g it.addr, item.shownBytes s1.buf⟩ :: rest), s2)
                | (.error e, s2) => (.error e, s2)) = (.error .panic, { s with buf := b })) := by
        intro item s1 b1 he hs1 hb1 hfit hline
        rw [he]
        dsimp only
        subst hs1
        obtain ⟨g1, g2⟩ := ih (s := { s with buf := b1 }) hs (by omega) hnd (by omega) (by
          have := hdrAt_some_iff.1 h2; omega) hb1
        constructor
        · intro hp
          obtain ⟨b, hbl, he2⟩ := g1 (fun x hx => hp x (by simp [hx]))
          rw [he2]
          exact ⟨b, hbl, by rw [List.map_cons, ← hline]⟩
        · intro hp
          obtain ⟨b, he2⟩ := g2 (fun h => hp (by
            intro x hx
            rcases List.mem_cons.1 hx with rfl | hx
            · exact hfit
            · exact h x hx))
          rw [he2]
          exact ⟨b, rfl⟩
      by_cases hz : it.hdr.crc = 0#32
      · rw [if_pos hz] at hri
        refine step _ _ s.buf hri rfl hb (fun h => absurd hz h) ?_
        simp [It.line, It.kind, hz, MaybeItem.shownBytes]
      · rw [if_neg hz] at hri
        by_cases hbs : s.buf.length < g.roundUp it.hdr.len.toNat
        · rw [if_pos hbs] at hri
          rw [hri]
          refine ⟨fun hp => ?_, fun _ => ⟨s.buf, rfl⟩⟩
          have := hp it (by simp) hz
          omega
        · rw [if_neg hbs] at hri
          refine step _ _ _ hri rfl (by rw [bufAfter_length (by omega)]; exact hb) (fun _ => by omega) ?_
          have htk : (bufAfter g s.fl.mem it.addr it.hdr s.buf).take it.hdr.len.toNat = it.data := by rw [bufAfter_take w, h4]
          by_cases hp : Present g s.fl.mem it.addr it.hdr
          · have : it.present = true := by unfold It.present; rw [h4]; exact decide_eq_true (present_iff.1 hp)
            simp only [if_pos hp, It.line, It.kind, if_neg hz, this, if_true, MaybeItem.shownBytes, htk]
          · have : it.present = false := by unfold It.present; rw [h4]; exact decide_eq_false (fun h => hp (present_iff.2 h))
            simp only [if_neg hp, It.line, It.kind, if_neg hz, this, Bool.false_eq_true, if_false, MaybeItem.shownBytes, htk]

/-- The lines for a page of the flash. -/
def pageLines (g : Geo) (mem : Nat → Byte) (its : Nat → List It) (i : Nat) : PageLines :=
  ⟨stateAt g mem i, (its i).map (It.line g)⟩

theorem printPages_run (its : Nat → List It) : ∀ {is : List Nat} {s : St K},
    (∀ i ∈ is, i < g.pageCount ∧ ∃ f, Layout false g s.fl.mem (g.dataEnd i) (g.dataStart i) (its i) f) → s.buf.length = printBuf →
    ((∀ i ∈ is, Printable g (its i)) → ∃ b, b.length = printBuf ∧
      printPages g is s = (.ok (is.map (pageLines g s.fl.mem its)), { s with buf := b })) ∧
    ((¬ ∀ i ∈ is, Printable g (its i)) → ∃ b, printPages g is s = (.error .panic, { s with buf := b })) := by
  intro is
  induction is with
  | nil => intro s _ hb; exact ⟨fun _ => ⟨s.buf, hb, rfl⟩, fun h => absurd (fun i hm => by simp at hm) h⟩
  | cons i is ih =>
    intro s hl hb
    obtain ⟨hi, f, l⟩ := hl i (by simp)
    have ho := page_order w i
    have hro := rounds_ok w i (Nat.le_refl _)
    obtain ⟨g1, g2⟩ := printLoop_run w hi (s := s) (rounds := g.rounds) l (Nat.le_refl _) (w.dataStart_word i) hro.1 hro.2 hb
    have hpage : ∀ x, printLoop g (g.dataEnd i) g.rounds (g.dataStart i) s = x → printPage g i s = (match x with
        | (.ok items, s1) => (.ok ⟨stateAt g s.fl.mem i, items⟩, s1)
        | (.error e, s1) => (.error e, s1)) := by
      rintro ⟨x, s1⟩ hx
      unfold printPage
      rw [bind_ok (attempt_run _ _), getPageState_any w s hi]
      dsimp only
      cases x with
      | ok y => rw [bind_ok hx]; rfl
      | error e => rw [bind_err hx]
    have hun : ∀ x, printPage g i s = x → printPages g (i :: is) s = (match x with
        | (.ok p, s1) => match printPages g is s1 with
          | (.ok ps, s2) => (.ok (p :: ps), s2)
          | (.error e, s2) => (.error e, s2)
        | (.error e, s1) => (.error e, s1)) := by
      rintro ⟨x, s1⟩ hx
      conv => lhs; unfold printPages
      cases x with
      | ok y =>
        rw [bind_ok hx, bind_run]
        dsimp only
        generalize printPages g is s1 = y
        obtain ⟨y, s2⟩ := y
        cases y <;> rfl
      | error e => rw [bind_err hx]
    by_cases hp : Printable g (its i)
    · obtain ⟨b, hbl, he⟩ := g1 hp
      have hP := hun _ (hpage _ he)
      rw [hP]
      dsimp only
      obtain ⟨k1, k2⟩ := ih (s := { s with buf := b }) (fun j hj => hl j (by simp [hj])) hbl
      constructor
      · intro h
        obtain ⟨b', hbl', he'⟩ := k1 (fun j hj => h j (by simp [hj]))
        rw [he']
        exact ⟨b', hbl', rfl⟩
      · intro h
        obtain ⟨b', he'⟩ := k2 (fun h' => h (by
          intro j hj
          rcases List.mem_cons.1 hj with rfl | hj
          · exact hp
          · exact h' j hj))
        rw [he']
        exact ⟨b', rfl⟩
    · obtain ⟨b, he⟩ := g2 hp
      have hP := hun _ (hpage _ he)
      rw [hP]
      refine ⟨fun h => absurd (h i (by simp)) hp, fun _ => ⟨b, rfl⟩⟩

/-- On any flash: the lines, or a panic because of a long item. Nothing else changes. -/
theorem printItems_run (s : St K) {its : Nat → List It}
    (hl : ∀ i, i < g.pageCount → ∃ f, Layout false g s.fl.mem (g.dataEnd i) (g.dataStart i) (its i) f) :
    ((∀ i, i < g.pageCount → Printable g (its i)) →
      printItems g s = (.ok ((List.range g.pageCount).map (pageLines g s.fl.mem its)), s)) ∧
    ((¬ ∀ i, i < g.pageCount → Printable g (its i)) → ∃ b, printItems g s = (.error .panic, { s with buf := b })) := by
  have hr : (g.pages 0) = List.range g.pageCount := pages_zero
  obtain ⟨h1, h2⟩ := printPages_run w its (is := List.range g.pageCount) (s := { s with buf := List.replicate printBuf 0#8 })
    (fun i hi => ⟨List.mem_range.1 hi, hl i (List.mem_range.1 hi)⟩) (by simp)
  have hun : ∀ x, printPages g (List.range g.pageCount) { s with buf := List.replicate printBuf 0#8 } = x →
      printItems g s = (match x with
        | (.ok ps, s1) => (.ok ps, { s1 with buf := s.buf })
        | (.error e, s1) => (.error e, s1)) := by
    rintro ⟨x, s1⟩ hx
    unfold printItems
    rw [bind_ok (get_run s), bind_ok (modify_run _ _), hr]
    cases x with
    | ok y => rw [bind_ok hx, bind_ok (modify_run _ _)]; rfl
    | error e => rw [bind_err hx]
  constructor
  · intro h
    obtain ⟨b, _, he⟩ := h1 (fun i hi => h i (List.mem_range.1 hi))
    rw [hun _ he]
  · intro h
    obtain ⟨b, he⟩ := h2 (fun h' => h (fun i hi => h' i (List.mem_range.2 hi)))
    exact ⟨b, hun _ he⟩

/-- Any flash has items to list. -/
theorem its_exist (mem : Nat → Byte) : ∃ its : Nat → List It, ∀ i, ∃ f, Layout false g mem (g.dataEnd i) (g.dataStart i) (its i) f := by
  have h : ∀ i, ∃ its, ∃ f, Layout false g mem (g.dataEnd i) (g.dataStart i) its f := by
    intro i
    obtain ⟨its, f, l⟩ := Layout.total w mem (g.dataEnd i) (g.dataEnd i + 1) (g.dataStart i) (by omega)
    exact ⟨its, f, l⟩
  exact ⟨fun i => (h i).choose, fun i => (h i).choose_spec⟩

/-- The items of a page of at most 16 KiB can be read. -/
theorem printable_small (hp : g.eraseSize ≤ printBuf) {mem : Nat → Byte} {i f : Nat} {its : List It}
    (l : Layout false g mem (g.dataEnd i) (g.dataStart i) its f) : Printable g its := by
  intro it hm _
  have ho := page_order w i
  obtain ⟨h1, h2, h3, _⟩ := l.mem_item w hm
  have hfe : f ≤ g.dataEnd i := l.le_end w (by omega) (w.dataStart_word i)
  have hn : it.hdr.next g it.addr = it.addr + g.hl + g.roundUp it.hdr.len.toNat := rfl
  omega

end

end SeqStorage
