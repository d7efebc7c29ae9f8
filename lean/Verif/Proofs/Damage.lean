import Verif.Proofs.QueueRun
import Verif.Proofs.MapScan
import Verif.Spec.Damage
/-
Items whose bytes change while nothing is looking.
-/

set_option linter.unusedSectionVars false

namespace SeqStorage
open M Spec

variable {K : Type} [DecidableEq K]
variable {md : Mode} {g : Geo} {σ : Shape} {P : Nat → PK}

/-- A byte of the item that its length field does not use. -/
def It.covers (g : Geo) (it : It) (x : Nat) : Prop :=
  it.addr ≤ x ∧ x < it.hdr.next g it.addr ∧ ¬ (it.addr + 4 ≤ x ∧ x < it.addr + 8)

/-- The item as it reads now. -/
def It.reread (g : Geo) (mem : Nat → Byte) (it : It) : It :=
  ⟨it.addr, ⟨it.hdr.len, ofLe32 (mem it.addr) (mem (it.addr + 1)) (mem (it.addr + 2)) (mem (it.addr + 3))⟩,
    dataAt g mem it.addr it.hdr.len.toNat⟩

/-- Only bytes of items that are there changed, and none of their length fields. -/
def Hit (g : Geo) (mem mem' : Nat → Byte) (its : List It) : Prop :=
  ∀ x, mem' x ≠ mem x → ∃ it ∈ its, it.present = true ∧ it.covers g x

/-- The page as it reads now. -/
def PK.reread (g : Geo) (mem : Nat → Byte) : PK → PK
  | .used closed its f => .used closed (its.map (It.reread g mem)) f
  | pk => pk

variable (w : g.WF)
include w

theorem It.reread_next (mem : Nat → Byte) (it : It) : (it.reread g mem).hdr.next g (it.reread g mem).addr = it.hdr.next g it.addr := rfl

/-- The header of an item whose length field did not change. -/
theorem hdrAt_reread {mem mem' : Nat → Byte} {a e : Nat} {hd : Header} (h : hdrAt g mem a e = .ok (some hd))
    (hx : ∀ x, a + 4 ≤ x → x < a + 8 → mem' x = mem x) :
    hdrAt g mem' a e = .ok (some ⟨hd.len, ofLe32 (mem' a) (mem' (a + 1)) (mem' (a + 2)) (mem' (a + 3))⟩) := by
  have h8 := w.hl_ge
  obtain ⟨h1, h2, h3⟩ := hdrAt_some_iff.1 h
  refine hdrAt_some_iff.2 ⟨h1, ?_, h3⟩
  rw [decode_some_iff (by simpa using h8)] at h2 ⊢
  simp only [getD_readBytes _ _ _ _ (show 0 < g.hl by omega), getD_readBytes _ _ _ _ (show 1 < g.hl by omega),
    getD_readBytes _ _ _ _ (show 2 < g.hl by omega), getD_readBytes _ _ _ _ (show 3 < g.hl by omega),
    getD_readBytes _ _ _ _ (show 4 < g.hl by omega), getD_readBytes _ _ _ _ (show 5 < g.hl by omega),
    getD_readBytes _ _ _ _ (show 6 < g.hl by omega), getD_readBytes _ _ _ _ (show 7 < g.hl by omega), Nat.add_zero] at h2 ⊢
  rw [hx (a + 4) (by omega) (by omega), hx (a + 5) (by omega) (by omega), hx (a + 6) (by omega) (by omega),
    hx (a + 7) (by omega) (by omega)]
  refine ⟨h2.1, ?_⟩
  rw [h2.2]

/-- The items of a page after some of their bytes changed. -/
theorem Layout.reread {cf : Bool} {mem mem' : Nat → Byte} {e a f : Nat} {its : List It} (l : Layout cf g mem e a its f)
    (hc : cf = false → 8 ≤ g.word) (ha : g.word ∣ a) (he : a ≤ e)
    (hx : ∀ x, a ≤ x → x < e → mem' x ≠ mem x → ∃ it ∈ its, it.covers g x) :
    Layout cf g mem' e a (its.map (It.reread g mem')) f := by
  induction l with
  | @done a h =>
    refine .done ?_
    have : ∀ x, a ≤ x → x < e → mem' x = mem x := by
      intro x h1 h2
      by_cases hne : mem' x = mem x
      · exact hne
      · obtain ⟨it, hit, _⟩ := hx x h1 h2 hne; simp at hit
    unfold hdrAt at h ⊢
    split
    · rfl
    · rename_i hce
      rw [if_neg hce] at h
      rw [readBytes_congr (mem := mem') (mem' := mem) (fun x h1 h2 => this x h1 (by omega))]
      exact h
  | @gap a f its hcf h t ih =>
    have hw := w.hl_eq_word (hc hcf)
    have hwe := error_lt h
    have hun : ∀ x, a ≤ x → x < a + g.word → mem' x = mem x := by
      intro x h1 h2
      by_cases hne : mem' x = mem x
      · exact hne
      · obtain ⟨it, hit, hcov⟩ := hx x h1 (by omega) hne
        have := (t.mem_item w hit).1
        have := hcov.1
        omega
    refine .gap hcf ?_ (ih (Nat.dvd_add ha (Nat.dvd_refl _)) (by omega) (fun x h1 h2 hne => hx x (by omega) h2 hne))
    unfold hdrAt at h ⊢
    rw [readBytes_congr (mem := mem') (mem' := mem) (fun x h1 h2 => hun x h1 (by omega))]
    exact h
  | @item a f its hd h t ih =>
    have hn := next_gt w hd a
    obtain ⟨h1, h2, h3⟩ := hdrAt_some_iff.1 h
    rw [List.map_cons]
    have hh : hdrAt g mem' a e = .ok (some ⟨hd.len, ofLe32 (mem' a) (mem' (a + 1)) (mem' (a + 2)) (mem' (a + 3))⟩) := by
      refine hdrAt_reread w h (fun x hx1 hx2 => ?_)
      by_cases hne : mem' x = mem x
      · exact hne
      · obtain ⟨it, hit, hcov⟩ := hx x (by omega) (by omega) hne
        rcases List.mem_cons.1 hit with rfl | hit
        · exact absurd ⟨hx1, hx2⟩ hcov.2.2
        · have := (t.mem_item w hit).1
          have := hcov.1
          omega
    refine Layout.item hh (ih (next_dvd w ha) h3 (fun x hx1 hx2 hne => ?_))
    obtain ⟨it, hit, hcov⟩ := hx x (by have : Header.next g hd a = hd.next g a := rfl; omega) hx2 hne
    rcases List.mem_cons.1 hit with rfl | hit
    · have := hcov.2.1
      simp only at this
      omega
    · exact ⟨it, hit, hcov⟩

/-- An item that was not hit reads the same. -/
theorem Layout.reread_self {cf : Bool} {mem : Nat → Byte} {e a f : Nat} {its : List It} (l : Layout cf g mem e a its f)
    {it : It} (hi : it ∈ its) : it.reread g mem = it := by
  obtain ⟨_, h2, _, h4⟩ := l.mem_item w hi
  have h := hdrAt_reread w h2 (mem' := mem) (fun _ _ _ => rfl)
  rw [h2] at h
  simp only [Except.ok.injEq, Option.some.injEq] at h
  cases it
  simp only [It.reread] at h h4 ⊢
  rw [← h, ← h4]

omit w in
theorem It.reread_congr {mem mem' : Nat → Byte} {it : It} (w : g.WF)
    (h : ∀ x, it.addr ≤ x → x < it.hdr.next g it.addr → mem' x = mem x) : it.reread g mem' = it.reread g mem := by
  have h8 := w.hl_ge
  have hr := w.le_roundUp it.hdr.len.toNat
  have hn : it.hdr.next g it.addr = it.addr + g.hl + g.roundUp it.hdr.len.toNat := rfl
  unfold It.reread dataAt
  rw [h it.addr (by omega) (by omega), h (it.addr + 1) (by omega) (by omega), h (it.addr + 2) (by omega) (by omega),
    h (it.addr + 3) (by omega) (by omega), readBytes_congr (mem := mem') (mem' := mem) (fun x h1 h2 => h x (by omega) (by omega))]

/-- An address belongs to one item only. -/
theorem covers_unique {fl : Flash} (h : FS md g fl σ P) {x y : It} (hx : x ∈ icontent g.pageCount σ P)
    (hy : y ∈ icontent g.pageCount σ P) {z : Nat} (h1 : x.addr ≤ z) (h2 : z < x.hdr.next g x.addr) (h3 : y.addr ≤ z)
    (h4 : z < y.hdr.next g y.addr) : x = y := by
  obtain ⟨j, c, f, hj, hxi, hlt, hpk, l, hx1, hx2, _⟩ := item_place w h hx
  obtain ⟨j', c', f', hj', hyi, hlt', hpk', l', hy1, hy2, _⟩ := item_place w h hy
  have ho := page_order w (ringPage g.pageCount σ.o j)
  have ho' := page_order w (ringPage g.pageCount σ.o j')
  have hpp : ringPage g.pageCount σ.o j = ringPage g.pageCount σ.o j' := by
    apply Classical.byContradiction
    intro hne
    have := w.page_disjoint (x := z) hne (by omega) (by omega)
    omega
  rw [← hpp] at hyi
  obtain ⟨pre, post, hsplit⟩ := List.append_of_mem hxi
  rw [hsplit] at hyi l
  rcases List.mem_append.1 hyi with hyi | hyi
  · have := (l.before w).2 y hyi; omega
  · rcases List.mem_cons.1 hyi with hyi | hyi
    · exact hyi.symm
    · have := ((l.suffix w).mem_item w hyi).1; omega

/-- Items that were not there are not hit. -/
theorem Hit.absent {fl : Flash} (h : FS md g fl σ P) {mem' : Nat → Byte} (H : Hit g fl.mem mem' (icontent g.pageCount σ P))
    {it : It} (hi : it ∈ icontent g.pageCount σ P) (hp : it.present = false) : it.reread g mem' = it := by
  obtain ⟨j, c, f, hj, hxi, hlt, hpk, l, hx1, hx2, _⟩ := item_place w h hi
  rw [It.reread_congr w (mem := fl.mem), l.reread_self w hxi]
  intro x h1 h2
  by_cases hne : mem' x = fl.mem x
  · exact hne
  · obtain ⟨it', hi', hp', hc⟩ := H x hne
    have := covers_unique w h hi hi' h1 h2 hc.1 hc.2.1
    rw [this, hp'] at hp
    simp at hp

/-- The items of all pages are part of the contents. -/
theorem owned {fl : Flash} (h : FS md g fl σ P) {i : Nat} (hi : i < g.pageCount) {it : It} (hit : it ∈ (P i).its) :
    it ∈ icontent g.pageCount σ P := by
  have hs := h.st i hi
  have hp := ringPage_pos h.wf.o_lt hi
  refine mem_icontent.2 ⟨ringPos g.pageCount σ.o i, ?_, by rw [hp]; exact hit⟩
  cases hpk : P i with
  | blank => rw [hpk] at hit; simp [PK.its] at hit
  | corr => rw [hpk] at hit; simp [PK.its] at hit
  | junk => rw [hpk] at hit; simp [PK.its] at hit
  | used c its f =>
    rw [hpk] at hs
    cases c with
    | true => exact (Shape.st_closed.1 hs.symm).1
    | false => have := (Shape.st_part.1 hs.symm).2; omega

/-- A change of bytes of items leaves a ring of pages. -/
theorem FS.reread {fl : Flash} (h : FS md g fl σ P) (hW : md.cf = false → 8 ≤ g.word) (hnp : md.np = false) (hdm : md.dmg = true) {mem' : Nat → Byte}
    (H : Hit g fl.mem mem' (icontent g.pageCount σ P)) :
    FS md g { fl with mem := mem' } σ (fun i => (P i).reread g mem') := by
  have hown : ∀ i, i < g.pageCount → ∀ it ∈ (P i).its, it ∈ icontent g.pageCount σ P := fun i hi it hit => owned w h hi hit
  refine ⟨fun i hi => ?_, h.fuel, h.wf, fun i hi => ?_, h.peak, h.faults, h.stuck⟩
  · have hp := h.pages i hi
    have ho := page_order w i
    have key : ∀ x, g.pageAddr i ≤ x → x < g.pageEnd i → mem' x ≠ fl.mem x →
        ∃ it ∈ (P i).its, it.present = true ∧ it.covers g x := by
      intro x h1 h2 hne
      obtain ⟨it, hit, hpr, hc⟩ := H x hne
      obtain ⟨j, c, f, hj, hxi, hlt, hpk, l, hx1, hx2, _⟩ := item_place w h hit
      have ho' := page_order w (ringPage g.pageCount σ.o j)
      have hpp : ringPage g.pageCount σ.o j = i := by
        apply Classical.byContradiction
        intro hne
        have := w.page_disjoint (x := x) hne (by have := hc.1; omega) (by have := hc.2.1; omega)
        omega
      exact ⟨it, by rw [← hpp]; exact hxi, hpr, hc⟩
    have hsame : (P i).its = [] → PageIs md g { fl with mem := mem' } i (P i) := by
      intro hni
      refine hp.congr w (fun x h1 h2 => ?_) (fun _ _ _ => rfl)
      by_cases hne : mem' x = fl.mem x
      · exact hne
      · obtain ⟨it, hit, _⟩ := key x h1 h2 hne
        rw [hni] at hit; simp at hit
    cases hpk : P i with
    | blank => rw [hpk] at hsame; exact hsame rfl
    | corr => rw [hpk] at hsame; exact hsame rfl
    | junk => rw [hpk] at hsame; exact hsame rfl
    | used closed its f =>
      have hown' := hown i hi
      rw [hpk] at hp key hown'
      have u : Used md g fl i closed its f := hp
      have hb := u.bounds w
      have hin : ∀ x, g.pageAddr i ≤ x → x < g.pageEnd i → mem' x ≠ fl.mem x → g.dataStart i ≤ x ∧ x < f := by
        intro x h1 h2 hne
        obtain ⟨it, hit, _, hc⟩ := key x h1 h2 hne
        have hm := u.layout.mem_item w hit
        have := hc.1
        have := hc.2.1
        exact ⟨by omega, by omega⟩
      have cC : ∀ a n, g.pageAddr i ≤ a → a + n ≤ g.pageEnd i → (a + n ≤ g.dataStart i ∨ f ≤ a) →
          ∀ x, a ≤ x → x < a + n → mem' x = fl.mem x := by
        intro a n ha hn hd x hx1 hx2
        by_cases hne : mem' x = fl.mem x
        · exact hne
        · have := hin x (by omega) (by omega) hne
          omega
      have rC : ∀ it ∈ its, it.present = false → it.reread g mem' = it := fun it hit hpr => Hit.absent w h H (hown' it hit) hpr
      exact {
        layout := u.layout.reread w hW (w.dataStart_word i) (by omega) (fun x h1 h2 hne => by
          obtain ⟨it, hit, _, hc⟩ := key x (by omega) (by omega) hne
          exact ⟨it, hit, hc⟩)
        startC := fun x h1 h2 => by dsimp only; rw [cC _ _ (Nat.le_refl _) (by omega) (by omega) x h1 h2]; exact u.startC x h1 h2
        startZ := by
          obtain ⟨x, h1, h2, h3⟩ := u.startZ
          exact ⟨x, h1, h2, by rw [← h3]; exact cC _ _ (Nat.le_refl _) (by omega) (by omega) x h1 h2⟩
        endC := fun x h1 h2 => by
          dsimp only; rw [cC (g.pageEnd i - g.readSize) g.readSize (by omega) (by omega) (by omega) x h1 h2]; exact u.endC x h1 h2
        endZ := fun hc => by
          obtain ⟨x, h1, h2, h3⟩ := u.endZ hc
          exact ⟨x, h1, h2, by rw [← h3]; exact cC (g.pageEnd i - g.readSize) g.readSize (by omega) (by omega) (by omega) x h1 h2⟩
        endF := fun hc x h1 h2 => by
          dsimp only; rw [cC (g.pageEnd i - g.readSize) g.readSize (by omega) (by omega) (by omega) x h1 h2]; exact u.endF hc x h1 h2
        fresh := fun hc hr x h1 h2 => by
          dsimp only; rw [cC f (g.dataEnd i - f) (by omega) (by omega) (by omega) x h1 h2]; exact u.fresh hc hr x h1 h2
        freshW := u.freshW
        counts := fun x h1 h2 h3 => by
          refine Nat.le_trans (u.counts x h1 h2 h3) ?_
          unfold wbound
          split
          · rename_i hany
            rw [if_pos]
            · exact Nat.le_refl _
            · rw [List.any_eq_true] at hany ⊢
              obtain ⟨it, hit, hb⟩ := hany
              refine ⟨it, List.mem_map.2 ⟨it, hit, rC it hit ?_⟩, hb⟩
              simp only [Bool.and_eq_true, decide_eq_true_eq] at hb
              cases hpr : it.present with
              | false => rfl
              | true =>
                unfold It.present at hpr
                rw [decide_eq_true_eq] at hpr
                have := (Props.stored_checksum_low_byte it.data).2
                rw [hpr] at this
                exact absurd hb.2 this
          · split <;> omega
        np := fun hc => by rw [hnp] at hc; simp at hc
        heads := fun hc h4 => by have := hW hc; omega
        gaps := fun hc h4 => by have := hW hc; omega
        pads := fun hc => by rw [hdm] at hc; simp at hc
        fit := by
          intro n hn it' hit' hne
          obtain ⟨it, hit, rfl⟩ := List.mem_map.1 hit'
          cases hpr : it.present with
          | false => rw [rC it hit hpr] at hne ⊢; exact u.fit n hn it hit hne
          | true =>
            refine u.fit n hn it hit ?_
            unfold It.present at hpr
            rw [decide_eq_true_eq] at hpr
            rw [← hpr]
            exact adapted_ne_zero _ }
  · have := h.st i hi
    rw [← this]
    cases P i with
    | used c its f => cases c <;> rfl
    | blank => rfl
    | corr => rfl
    | junk => rfl

omit w in
theorem reread_its (mem : Nat → Byte) (pk : PK) : (pk.reread g mem).its = pk.its.map (It.reread g mem) := by
  cases pk <;> rfl

omit w in
theorem icontent_reread (mem : Nat → Byte) (n : Nat) :
    icontent n σ (fun i => (P i).reread g mem) = (icontent n σ P).map (It.reread g mem) := by
  unfold icontent iseg
  rw [List.map_flatMap]
  simp only [reread_its]

omit w in
theorem content_items (n : Nat) : content n σ P = datas (icontent n σ P) := by
  unfold content seg icontent iseg datas
  rw [List.filter_flatMap, List.map_flatMap]

/-- The caches keep up with damage. -/
theorem Good.reread {s : St K} (h : Good md g s σ P) (hW : md.cf = false → 8 ≤ g.word) (hnp : md.np = false) (hdm : md.dmg = true) {mem' : Nat → Byte}
    (H : Hit g s.fl.mem mem' (icontent g.pageCount σ P)) :
    Good md g { s with fl := { s.fl with mem := mem' } } σ (fun i => (P i).reread g mem') := by
  refine ⟨h.fs.reread w hW hnp hdm H, h.ps, fun i hi => ⟨fun p hp => ?_, fun p hp => ?_⟩⟩
  · obtain ⟨c, pre, it, post, f, h1, h2, h3⟩ := (h.pp i hi).1 p hp
    have hsame : ∀ x ∈ pre ++ [it], x.reread g mem' = x := by
      intro x hx
      have hx' : x ∈ (P i).its := by
        rw [h1]; simp only [PK.its]
        rcases List.mem_append.1 hx with hx | hx
        · simp [hx]
        · simp at hx; simp [hx]
      refine Hit.absent w h.fs H (owned w h.fs hi hx') ?_
      unfold It.present
      rw [h2 x hx]
      simp [adapted_ne_zero]
    refine ⟨c, pre, it, post.map (It.reread g mem'), f, ?_, h2, h3⟩
    simp only [h1, PK.reread, List.map_append, List.map_cons]
    rw [hsame it (by simp), List.map_congr_left (g := id) (fun x hx => hsame x (by simp [hx])), List.map_id]
  · obtain ⟨c, its, h1⟩ := (h.pp i hi).2 p hp
    exact ⟨c, its.map (It.reread g mem'), by simp only [h1, PK.reread]⟩

theorem QI.reread {s : St K} (h : QI md g s σ P) (hW : md.cf = false → 8 ≤ g.word) (hnp : md.np = false) (hdm : md.dmg = true) {mem' : Nat → Byte}
    (H : Hit g s.fl.mem mem' (icontent g.pageCount σ P)) :
    QI md g { s with fl := { s.fl with mem := mem' } } σ (fun i => (P i).reread g mem') := by
  refine ⟨h.fs.reread w hW hnp hdm H, h.sized, fun hd => (h.good hd).reread w hW hnp hdm H, ⟨fun i hi => ?_, ?_, h.ok.free⟩, h.log⟩
  · have := h.ok.nojunk i hi
    cases hpk : P i with
    | junk => exact absurd hpk this
    | blank => simp [PK.reread]
    | corr => simp [PK.reread]
    | used c its f => simp [PK.reread]
  · intro _ h'; rw [hdm] at h'; simp at h'

/-! ### Items with their places -/

/-- The item as address and data. -/
def It.pair (it : It) : Nat × List Byte := (it.addr, it.data)

/-- The queue holds these items at these addresses, oldest first. -/
def HoldsAt (md : Mode) (g : Geo) (s : St K) (l : List (Nat × List Byte)) : Prop :=
  ∃ σ P, QI md g s σ P ∧ ((icontent g.pageCount σ P).filter It.present).map It.pair = l

omit w in
theorem HoldsAt.holds {s : St K} {l : List (Nat × List Byte)} (h : HoldsAt md g s l) : Holds md g s (l.map (·.2)) := by
  obtain ⟨σ, P, h, rfl⟩ := h
  refine ⟨σ, P, h, ?_⟩
  rw [content_items, datas, List.map_map]
  rfl

omit w in
theorem Holds.at {s : St K} {q : List (List Byte)} (h : Holds md g s q) : ∃ l, HoldsAt md g s l ∧ l.map (·.2) = q := by
  obtain ⟨σ, P, h, rfl⟩ := h
  refine ⟨_, ⟨σ, P, h, rfl⟩, ?_⟩
  rw [content_items, datas, List.map_map]
  rfl

theorem item_len {fl : Flash} (h : FS md g fl σ P) {it : It} (hi : it ∈ icontent g.pageCount σ P) :
    it.data.length = it.hdr.len.toNat ∧ it.addr + itemSize g.word it.data = it.hdr.next g it.addr := by
  obtain ⟨j, c, f, hj, hxi, hlt, hpk, l, hx1, hx2, _⟩ := item_place w h hi
  have hd := (l.mem_item w hxi).2.2.2
  have hl : it.data.length = it.hdr.len.toNat := by rw [hd, dataAt_length]
  refine ⟨hl, ?_⟩
  rw [itemSize_eq]
  unfold foot Header.next
  rw [hl, Nat.add_assoc]

theorem item_dataOf {mem : Nat → Byte} {it : It} (hl : it.data.length = it.hdr.len.toNat) :
    dataOf g.word mem it.pair = (it.reread g mem).data := by
  unfold dataOf It.pair It.reread dataAt readBytes
  simp only [hl, pad_eq]
  rfl

theorem item_inFlash {fl : Flash} (h : FS md g fl σ P) {it : It} (hi : it ∈ icontent g.pageCount σ P) (hp : it.present = true) :
    InFlash g.word fl.mem it.pair := by
  obtain ⟨j, c, f, hj, hxi, hlt, hpk, l, hx1, hx2, _⟩ := item_place w h hi
  have hs := l.reread_self w hxi
  refine ⟨?_, ?_⟩
  · unfold It.present at hp
    rw [decide_eq_true_eq] at hp
    show word32 fl.mem it.addr = adaptedCrc32 it.data
    rw [hp]
    conv => rhs; rw [← hs]
    rfl
  · rw [item_dataOf w (item_len w h hi).1, hs]; rfl

/-- What is left of a list of items after damage. -/
theorem survivors_reread {W : Nat} {mem' : Nat → Byte} (its : List It)
    (h1 : ∀ it ∈ its, it.present = false → it.reread g mem' = it)
    (h2 : ∀ it ∈ its, it.present = true → InFlash W mem' it.pair → it.reread g mem' = it)
    (h3 : ∀ it ∈ its, it.present = true → ¬ InFlash W mem' it.pair → (it.reread g mem').present = false) :
    ((its.map (It.reread g mem')).filter It.present).map It.pair = survivors W mem' ((its.filter It.present).map It.pair) := by
  induction its with
  | nil => rfl
  | cons it its ih =>
    have ih := ih (fun x hx => h1 x (by simp [hx])) (fun x hx => h2 x (by simp [hx])) (fun x hx => h3 x (by simp [hx]))
    unfold survivors at ih ⊢
    rw [List.map_cons]
    cases hp : it.present with
    | false =>
      rw [h1 it (by simp) hp, List.filter_cons_of_neg (by simp [hp]), List.filter_cons_of_neg (by simp [hp])]
      exact ih
    | true =>
      rw [List.filter_cons_of_pos (p := It.present) (a := it) hp, List.map_cons]
      by_cases hin : InFlash W mem' it.pair
      · rw [h2 it (by simp) hp hin, List.filter_cons_of_pos (by simp [hp]), List.map_cons,
          List.filter_cons_of_pos (by simp [hin]), ih]
      · rw [List.filter_cons_of_neg (by simp [h3 it (by simp) hp hin]), List.filter_cons_of_neg (by simp [hin]), ih]

theorem Damage.hit {fl : Flash} (h : FS md g fl σ P) {mem' : Nat → Byte}
    (H : Damage g.word fl.mem mem' (((icontent g.pageCount σ P).filter It.present).map It.pair)) :
    Hit g fl.mem mem' (icontent g.pageCount σ P) := by
  intro x hx
  obtain ⟨p, hp, h1, h2, h3⟩ := H.where_ x hx
  obtain ⟨it, hit, rfl⟩ := List.mem_map.1 hp
  obtain ⟨hit, hpr⟩ := List.mem_filter.1 hit
  refine ⟨it, hit, hpr, h1, ?_, h3⟩
  rw [← (item_len w h hit).2]
  exact h2

theorem Damage.survive {fl : Flash} (h : FS md g fl σ P) {mem' : Nat → Byte}
    (H : Damage g.word fl.mem mem' (((icontent g.pageCount σ P).filter It.present).map It.pair)) :
    (((icontent g.pageCount σ P).map (It.reread g mem')).filter It.present).map It.pair =
      survivors g.word mem' (((icontent g.pageCount σ P).filter It.present).map It.pair) := by
  have hH := Damage.hit w h H
  refine survivors_reread w _ (fun it hit hp => Hit.absent w h hH hit hp) ?_ ?_
  · intro it hit hp hin
    have hl := item_len w h hit
    have hd := item_dataOf w (mem := mem') hl.1
    obtain ⟨h1, h2⟩ := hin
    rw [hd] at h2
    have h3 : word32 mem' it.addr = it.hdr.crc := by
      unfold It.present at hp
      rw [decide_eq_true_eq] at hp
      rw [← hp]; exact h1
    unfold It.reread at h2 ⊢
    unfold word32 at h3
    simp only [It.pair] at h2
    rw [h2, h3]
  · intro it hit hp hin
    have hl := item_len w h hit
    have hd := item_dataOf w (mem := mem') hl.1
    rcases H.seen it.pair (List.mem_map.2 ⟨it, List.mem_filter.2 ⟨hit, hp⟩, rfl⟩) with h1 | h1
    · exact absurd h1 hin
    · unfold It.present
      rw [decide_eq_false_iff_not]
      rw [hd] at h1
      exact fun h => h1 h.symm

/-- Damaged items are gone, the others remain. -/
theorem HoldsAt.damage {s : St K} {l : List (Nat × List Byte)} (h : HoldsAt md g s l) (hW : md.cf = false → 8 ≤ g.word) (hnp : md.np = false)
    (hdm : md.dmg = true) {mem' : Nat → Byte} (H : Damage g.word s.fl.mem mem' l) :
    HoldsAt md g { s with fl := { s.fl with mem := mem' } } (survivors g.word mem' l) := by
  obtain ⟨σ, P, h, rfl⟩ := h
  refine ⟨σ, _, h.reread w hW hnp hdm (Damage.hit w h.fs H), ?_⟩
  rw [icontent_reread, Damage.survive w h.fs H]

/-- What is known of the items. -/
theorem HoldsAt.placed {s : St K} {l : List (Nat × List Byte)} (h : HoldsAt md g s l) :
    (∀ p ∈ l, InFlash g.word s.fl.mem p ∧ p.2.length ≤ 65535 ∧ g.start ≤ p.1 ∧ p.1 + itemSize g.word p.2 ≤ g.stop) ∧
    (∀ p ∈ l, ∀ p' ∈ l, p ≠ p' → p.1 + itemSize g.word p.2 ≤ p'.1 ∨ p'.1 + itemSize g.word p'.2 ≤ p.1) := by
  obtain ⟨σ, P, h, rfl⟩ := h
  constructor
  · intro p hp
    obtain ⟨it, hit, rfl⟩ := List.mem_map.1 hp
    obtain ⟨hit, hpr⟩ := List.mem_filter.1 hit
    have hl := item_len w h.fs hit
    obtain ⟨j, c, f, hj, hxi, hlt, hpk, l, hx1, hx2, _⟩ := item_place w h.fs hit
    have ho := page_order w (ringPage g.pageCount σ.o j)
    have hpe := w.page_le hlt
    refine ⟨item_inFlash w h.fs hit hpr, ?_, ?_, ?_⟩
    · have := it.hdr.len.isLt
      show it.data.length ≤ 65535
      omega
    · show g.start ≤ it.addr
      omega
    · show it.addr + itemSize g.word it.data ≤ g.stop
      rw [hl.2]; omega
  · intro p hp p' hp' hne
    obtain ⟨it, hit, rfl⟩ := List.mem_map.1 hp
    obtain ⟨hit, hpr⟩ := List.mem_filter.1 hit
    obtain ⟨it', hit', rfl⟩ := List.mem_map.1 hp'
    obtain ⟨hit', hpr'⟩ := List.mem_filter.1 hit'
    have hl := item_len w h.fs hit
    have hl' := item_len w h.fs hit'
    have hn := Layout.next_gt w it.hdr it.addr
    have hn' := Layout.next_gt w it'.hdr it'.addr
    show it.addr + itemSize g.word it.data ≤ it'.addr ∨ it'.addr + itemSize g.word it'.data ≤ it.addr
    rw [hl.2, hl'.2]
    apply Classical.byContradiction
    intro hov
    apply hne
    rw [covers_unique w h.fs hit hit' (z := max it.addr it'.addr) (by omega) (by omega) (by omega) (by omega)]

end SeqStorage
