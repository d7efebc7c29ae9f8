import Verif.Proofs.Damage
/-
Items whose headers change while nothing is looking, so that the scan goes through their bytes word by word.
-/

set_option linter.unusedSectionVars false

namespace SeqStorage
open M Spec

variable {K : Type} [DecidableEq K]
variable {md : Mode} {g : Geo} {σ : Shape} {P : Nat → PK}

/-- The length of the item reads as before. -/
def It.sound (mem : Nat → Byte) (it : It) : Bool :=
  decide (ofLe16 (mem (it.addr + 4)) (mem (it.addr + 5)) = it.hdr.len ∧
    crc16 [mem (it.addr + 4), mem (it.addr + 5)] = ofLe16 (mem (it.addr + 6)) (mem (it.addr + 7)))

/-- The items that are still found, as they read now. -/
def rescan (g : Geo) (mem : Nat → Byte) (its : List It) : List It := (its.filter (It.sound mem)).map (It.reread g mem)

/-- The page as it reads now. -/
def PK.rescan (g : Geo) (mem : Nat → Byte) : PK → PK
  | .used closed its f => .used closed (SeqStorage.rescan g mem its) f
  | pk => pk

/-- Only bytes of items that are there changed, and where a length changed, no word of the item reads as a header. -/
structure Shred (g : Geo) (mem mem' : Nat → Byte) (its : List It) : Prop where
  place : ∀ x, mem' x ≠ mem x → ∃ it ∈ its, it.present = true ∧ it.addr ≤ x ∧ x < it.hdr.next g it.addr
  lost : ∀ it ∈ its, it.sound mem' = false → ∀ k, it.addr + k * g.word < it.hdr.next g it.addr →
    Unreadable g.word mem' (it.addr + k * g.word)

variable (w : g.WF)
include w

/-- A header whose length did not change. -/
theorem hdrAt_sound {mem mem' : Nat → Byte} {a e : Nat} {hd : Header} {d : List Byte} (h : hdrAt g mem a e = .ok (some hd))
    (hs : (It.mk a hd d).sound mem' = true) :
    hdrAt g mem' a e = .ok (some ⟨hd.len, ofLe32 (mem' a) (mem' (a + 1)) (mem' (a + 2)) (mem' (a + 3))⟩) := by
  have h8 := w.hl_ge
  obtain ⟨h1, h2, h3⟩ := hdrAt_some_iff.1 h
  unfold It.sound at hs
  rw [decide_eq_true_eq] at hs
  obtain ⟨hs1, hs2⟩ := hs
  refine hdrAt_some_iff.2 ⟨h1, ?_, h3⟩
  rw [decode_some_iff (by simpa using h8)]
  simp only [getD_readBytes _ _ _ _ (show 0 < g.hl by omega), getD_readBytes _ _ _ _ (show 1 < g.hl by omega),
    getD_readBytes _ _ _ _ (show 2 < g.hl by omega), getD_readBytes _ _ _ _ (show 3 < g.hl by omega),
    getD_readBytes _ _ _ _ (show 4 < g.hl by omega), getD_readBytes _ _ _ _ (show 5 < g.hl by omega),
    getD_readBytes _ _ _ _ (show 6 < g.hl by omega), getD_readBytes _ _ _ _ (show 7 < g.hl by omega), Nat.add_zero]
  refine ⟨hs2, ?_⟩
  simp only at hs1
  rw [hs1]

theorem sound_self {mem : Nat → Byte} {a e : Nat} {hd : Header} {d : List Byte} (h : hdrAt g mem a e = .ok (some hd)) :
    (It.mk a hd d).sound mem = true := by
  have h8 := w.hl_ge
  obtain ⟨h1, h2, h3⟩ := hdrAt_some_iff.1 h
  rw [decode_some_iff (by simpa using h8)] at h2
  simp only [getD_readBytes _ _ _ _ (show 4 < g.hl by omega), getD_readBytes _ _ _ _ (show 5 < g.hl by omega),
    getD_readBytes _ _ _ _ (show 6 < g.hl by omega), getD_readBytes _ _ _ _ (show 7 < g.hl by omega)] at h2
  unfold It.sound
  rw [decide_eq_true_eq]
  refine ⟨?_, h2.1⟩
  simp only
  rw [h2.2]

theorem Layout.sound {cf : Bool} {mem : Nat → Byte} {e a f : Nat} {its : List It} (l : Layout cf g mem e a its f)
    {it : It} (hi : it ∈ its) : it.sound mem = true := sound_self w (d := it.data) (l.mem_item w hi).2.1

omit w in
theorem It.sound_congr {mem mem' : Nat → Byte} {it : It} (w : g.WF)
    (h : ∀ x, it.addr ≤ x → x < it.hdr.next g it.addr → mem' x = mem x) : it.sound mem' = it.sound mem := by
  have h8 := w.hl_ge
  have hn : it.hdr.next g it.addr = it.addr + g.hl + g.roundUp it.hdr.len.toNat := rfl
  unfold It.sound
  rw [h (it.addr + 4) (by omega) (by omega), h (it.addr + 5) (by omega) (by omega), h (it.addr + 6) (by omega) (by omega),
    h (it.addr + 7) (by omega) (by omega)]

theorem unreadable_error {mem : Nat → Byte} {a e : Nat} (hW : 8 ≤ g.word) (he : a + g.word ≤ e) (h : Unreadable g.word mem a) :
    hdrAt g mem a e = .error .corrupted := by
  have hw := w.hl_eq_word hW
  obtain ⟨h1, i, hi, h2⟩ := h
  unfold hdrAt
  rw [if_neg (by omega)]
  have : decodeHeader (readBytes mem a g.hl) = .error .corrupted := by
    cases hd : decodeHeader (readBytes mem a g.hl) with
    | error e' => rw [decodeHeader_err hd]
    | ok o =>
      cases o with
      | none =>
        rw [decode_none_iff] at hd
        exact absurd (hd (mem (a + i)) (List.mem_iff_getElem.2 ⟨i, by simp; omega, by rw [readBytes_getElem]⟩)) h2
      | some hh =>
        rw [decode_some_iff (by simp; omega)] at hd
        simp only [getD_readBytes _ _ _ _ (show 4 < g.hl by omega), getD_readBytes _ _ _ _ (show 5 < g.hl by omega),
          getD_readBytes _ _ _ _ (show 6 < g.hl by omega), getD_readBytes _ _ _ _ (show 7 < g.hl by omega)] at hd
        exact absurd hd.1 h1
  rw [this]

omit w in
/-- Several unreadable words in front of the items. -/
theorem Layout.gaps {cf : Bool} (hcf : cf = false) {mem : Nat → Byte} {e f : Nat} {its : List It} : ∀ (n a : Nat),
    (∀ k, k < n → hdrAt g mem (a + k * g.word) e = .error .corrupted) → Layout cf g mem e (a + n * g.word) its f →
    Layout cf g mem e a its f
  | 0, a, _, l => by simpa using l
  | n + 1, a, h, l => by
    refine .gap hcf (by simpa using h 0 (by omega)) (Layout.gaps hcf n (a + g.word) (fun k hk => ?_) ?_)
    · have := h (k + 1) (by omega)
      rw [Nat.succ_mul] at this
      rwa [Nat.add_assoc, Nat.add_comm g.word]
    · rw [Nat.succ_mul] at l
      rwa [Nat.add_assoc, Nat.add_comm g.word]

/-- The items of a page after some of their bytes changed. -/
theorem Layout.rescan {mem mem' : Nat → Byte} {e a f : Nat} {its : List It} (l : Layout false g mem e a its f)
    (hW : 8 ≤ g.word) (ha : g.word ∣ a) (he : a ≤ e)
    (hx : ∀ x, a ≤ x → x < e → mem' x ≠ mem x → ∃ it ∈ its, it.addr ≤ x ∧ x < it.hdr.next g it.addr)
    (hl : ∀ it ∈ its, it.sound mem' = false → ∀ k, it.addr + k * g.word < it.hdr.next g it.addr →
      Unreadable g.word mem' (it.addr + k * g.word)) :
    Layout false g mem' e a (SeqStorage.rescan g mem' its) f := by
  generalize hcf : false = cf at l
  induction l with
  | @done a h =>
    refine .done ?_
    have : ∀ x, a ≤ x → x < e → mem' x = mem x := by
      intro x h1 h2
      by_cases hne : mem' x = mem x
      · exact hne
      · obtain ⟨it, hit, _⟩ := hx x h1 h2 hne; simp at hit
    unfold hdrAt at h ⊢
    split
    · rfl
    · rename_i hce
      rw [if_neg hce] at h
      rw [readBytes_congr (mem := mem') (mem' := mem) (fun x h1 h2 => this x h1 (by omega))]
      exact h
  | @gap a f its hc h t ih =>
    have hw := w.hl_eq_word hW
    have hwe := error_lt h
    have hun : ∀ x, a ≤ x → x < a + g.word → mem' x = mem x := by
      intro x h1 h2
      by_cases hne : mem' x = mem x
      · exact hne
      · obtain ⟨it, hit, hcov⟩ := hx x h1 (by omega) hne
        have := (t.mem_item w hit).1
        have := hcov.1
        omega
    refine .gap hc ?_ (ih (Nat.dvd_add ha (Nat.dvd_refl _)) (by omega) (fun x h1 h2 hne => hx x (by omega) h2 hne) hl)
    unfold hdrAt at h ⊢
    rw [readBytes_congr (mem := mem') (mem' := mem) (fun x h1 h2 => hun x h1 (by omega))]
    exact h
  | @item a f its hd h t ih =>
    have hn := next_gt w hd a
    obtain ⟨h1, h2, h3⟩ := hdrAt_some_iff.1 h
    have ht := ih (next_dvd w ha) h3 (fun x hx1 hx2 hne => by
      obtain ⟨it, hit, hcov⟩ := hx x (by have : Header.next g hd a = hd.next g a := rfl; omega) hx2 hne
      rcases List.mem_cons.1 hit with rfl | hit
      · have := hcov.2
        simp only at this
        omega
      · exact ⟨it, hit, hcov⟩) (fun it hit => hl it (List.mem_cons_of_mem _ hit))
    cases hs : (It.mk a hd (dataAt g mem a hd.len.toNat)).sound mem' with
    | true =>
      unfold SeqStorage.rescan
      rw [List.filter_cons_of_pos hs, List.map_cons]
      exact Layout.item (hdrAt_sound w h hs) ht
    | false =>
      unfold SeqStorage.rescan
      rw [List.filter_cons_of_neg (by simp [hs])]
      have hlost := hl _ (List.mem_cons_self ..) hs
      simp only at hlost
      obtain ⟨n, hn'⟩ : g.word ∣ hd.next g a - a := Nat.dvd_sub (next_dvd w ha) ha
      rw [Nat.mul_comm] at hn'
      have hp := w.word_pos
      refine Layout.gaps hcf.symm n a (fun k hk => ?_) (by rw [← hn', Nat.add_sub_cancel' (by omega)]; exact ht)
      have : (k + 1) * g.word ≤ n * g.word := Nat.mul_le_mul_right _ hk
      rw [Nat.succ_mul] at this
      exact unreadable_error w hW (by omega) (hlost k (by omega))

/-- Items that were not there are still found and read the same. -/
theorem Shred.absent {fl : Flash} (h : FS md g fl σ P) {mem' : Nat → Byte}
    (H : ∀ x, mem' x ≠ fl.mem x → ∃ it ∈ icontent g.pageCount σ P, it.present = true ∧ it.addr ≤ x ∧ x < it.hdr.next g it.addr)
    {it : It} (hi : it ∈ icontent g.pageCount σ P) (hp : it.present = false) : it.reread g mem' = it ∧ it.sound mem' = true := by
  obtain ⟨j, c, f, hj, hxi, hlt, hpk, l, hx1, hx2, _⟩ := item_place w h hi
  have hsame : ∀ x, it.addr ≤ x → x < it.hdr.next g it.addr → mem' x = fl.mem x := by
    intro x h1 h2
    by_cases hne : mem' x = fl.mem x
    · exact hne
    · obtain ⟨it', hi', hp', hc⟩ := H x hne
      have := covers_unique w h hi hi' h1 h2 hc.1 hc.2
      rw [this, hp'] at hp
      simp at hp
  exact ⟨by rw [It.reread_congr w hsame, l.reread_self w hxi], by rw [It.sound_congr w hsame, l.sound w hxi]⟩

/-- A change of bytes of items leaves a ring of pages. -/
theorem FS.rescan {fl : Flash} (h : FS md g fl σ P) (hcf : md.cf = false) (hW : 8 ≤ g.word) (hnp : md.np = false) (hdm : md.dmg = true) {mem' : Nat → Byte}
    (H : Shred g fl.mem mem' (icontent g.pageCount σ P)) :
    FS md g { fl with mem := mem' } σ (fun i => (P i).rescan g mem') := by
  have hown : ∀ i, i < g.pageCount → ∀ it ∈ (P i).its, it ∈ icontent g.pageCount σ P := fun i hi it hit => owned w h hi hit
  refine ⟨fun i hi => ?_, h.fuel, h.wf, fun i hi => ?_, h.peak, h.faults, h.stuck⟩
  · have hp := h.pages i hi
    have ho := page_order w i
    have key : ∀ x, g.pageAddr i ≤ x → x < g.pageEnd i → mem' x ≠ fl.mem x →
        ∃ it ∈ (P i).its, it.present = true ∧ it.addr ≤ x ∧ x < it.hdr.next g it.addr := by
      intro x h1 h2 hne
      obtain ⟨it, hit, hpr, hc⟩ := H.place x hne
      obtain ⟨j, c, f, hj, hxi, hlt, hpk, l, hx1, hx2, _⟩ := item_place w h hit
      have ho' := page_order w (ringPage g.pageCount σ.o j)
      have hpp : ringPage g.pageCount σ.o j = i := by
        apply Classical.byContradiction
        intro hne
        have := w.page_disjoint (x := x) hne (by have := hc.1; omega) (by have := hc.2; omega)
        omega
      exact ⟨it, by rw [← hpp]; exact hxi, hpr, hc⟩
    have hsame : (P i).its = [] → PageIs md g { fl with mem := mem' } i (P i) := by
      intro hni
      refine hp.congr w (fun x h1 h2 => ?_) (fun _ _ _ => rfl)
      by_cases hne : mem' x = fl.mem x
      · exact hne
      · obtain ⟨it, hit, _⟩ := key x h1 h2 hne
        rw [hni] at hit; simp at hit
    cases hpk : P i with
    | blank => rw [hpk] at hsame; exact hsame rfl
    | corr => rw [hpk] at hsame; exact hsame rfl
    | junk => rw [hpk] at hsame; exact hsame rfl
    | used closed its f =>
      have hown' := hown i hi
      rw [hpk] at hp key hown'
      have u : Used md g fl i closed its f := hp
      have hb := u.bounds w
      have hin : ∀ x, g.pageAddr i ≤ x → x < g.pageEnd i → mem' x ≠ fl.mem x → g.dataStart i ≤ x ∧ x < f := by
        intro x h1 h2 hne
        obtain ⟨it, hit, _, hc⟩ := key x h1 h2 hne
        have hm := u.layout.mem_item w hit
        have := hc.1
        have := hc.2
        exact ⟨by omega, by omega⟩
      have cC : ∀ a n, g.pageAddr i ≤ a → a + n ≤ g.pageEnd i → (a + n ≤ g.dataStart i ∨ f ≤ a) →
          ∀ x, a ≤ x → x < a + n → mem' x = fl.mem x := by
        intro a n ha hn hd x hx1 hx2
        by_cases hne : mem' x = fl.mem x
        · exact hne
        · have := hin x (by omega) (by omega) hne
          omega
      have rC : ∀ it ∈ its, it.present = false → it.reread g mem' = it ∧ it.sound mem' = true :=
        fun it hit hpr => Shred.absent w h H.place (hown' it hit) hpr
      have hlay := u.layout
      rw [hcf] at hlay
      exact {
        layout := by
          rw [hcf]
          exact hlay.rescan w hW (w.dataStart_word i) (by omega) (fun x h1 h2 hne => by
            obtain ⟨it, hit, _, hc⟩ := key x (by omega) (by omega) hne
            exact ⟨it, hit, hc⟩) (fun it hit => H.lost it (hown' it hit))
        startC := fun x h1 h2 => by dsimp only; rw [cC _ _ (Nat.le_refl _) (by omega) (by omega) x h1 h2]; exact u.startC x h1 h2
        startZ := by
          obtain ⟨x, h1, h2, h3⟩ := u.startZ
          exact ⟨x, h1, h2, by rw [← h3]; exact cC _ _ (Nat.le_refl _) (by omega) (by omega) x h1 h2⟩
        endC := fun x h1 h2 => by
          dsimp only; rw [cC (g.pageEnd i - g.readSize) g.readSize (by omega) (by omega) (by omega) x h1 h2]; exact u.endC x h1 h2
        endZ := fun hc => by
          obtain ⟨x, h1, h2, h3⟩ := u.endZ hc
          exact ⟨x, h1, h2, by rw [← h3]; exact cC (g.pageEnd i - g.readSize) g.readSize (by omega) (by omega) (by omega) x h1 h2⟩
        endF := fun hc x h1 h2 => by
          dsimp only; rw [cC (g.pageEnd i - g.readSize) g.readSize (by omega) (by omega) (by omega) x h1 h2]; exact u.endF hc x h1 h2
        fresh := fun hc hr x h1 h2 => by
          dsimp only; rw [cC f (g.dataEnd i - f) (by omega) (by omega) (by omega) x h1 h2]; exact u.fresh hc hr x h1 h2
        freshW := u.freshW
        counts := fun x h1 h2 h3 => by
          refine Nat.le_trans (u.counts x h1 h2 h3) ?_
          unfold wbound
          split
          · rename_i hany
            rw [if_pos]
            · exact Nat.le_refl _
            · rw [List.any_eq_true] at hany ⊢
              obtain ⟨it, hit, hb⟩ := hany
              have hab : it.present = false := by
                simp only [Bool.and_eq_true, decide_eq_true_eq] at hb
                cases hpr : it.present with
                | false => rfl
                | true =>
                  unfold It.present at hpr
                  rw [decide_eq_true_eq] at hpr
                  have := (Props.stored_checksum_low_byte it.data).2
                  rw [hpr] at this
                  exact absurd hb.2 this
              exact ⟨it, List.mem_map.2 ⟨it, List.mem_filter.2 ⟨hit, (rC it hit hab).2⟩, (rC it hit hab).1⟩, hb⟩
          · split <;> omega
        np := fun hc => by rw [hnp] at hc; simp at hc
        heads := fun hc h4 => by omega
        gaps := fun hc h4 => by omega
        pads := fun hc => by rw [hdm] at hc; simp at hc
        fit := by
          intro n hn it' hit' hne
          obtain ⟨it, hit, rfl⟩ := List.mem_map.1 hit'
          have hit := (List.mem_filter.1 hit).1
          cases hpr : it.present with
          | false => rw [(rC it hit hpr).1] at hne ⊢; exact u.fit n hn it hit hne
          | true =>
            refine u.fit n hn it hit ?_
            unfold It.present at hpr
            rw [decide_eq_true_eq] at hpr
            rw [← hpr]
            exact adapted_ne_zero _ }
  · have := h.st i hi
    rw [← this]
    cases P i with
    | used c its f => cases c <;> rfl
    | blank => rfl
    | corr => rfl
    | junk => rfl

omit w in
theorem rescan_its (mem : Nat → Byte) (pk : PK) : (pk.rescan g mem).its = rescan g mem pk.its := by
  cases pk <;> rfl

omit w in
theorem icontent_rescan (mem : Nat → Byte) (n : Nat) :
    icontent n σ (fun i => (P i).rescan g mem) = rescan g mem (icontent n σ P) := by
  unfold icontent iseg
  unfold SeqStorage.rescan
  rw [List.filter_flatMap, List.map_flatMap]
  simp only [rescan_its]
  rfl

/-- The caches keep up with damage. -/
theorem Good.rescan {s : St K} (h : Good md g s σ P) (hcf : md.cf = false) (hW : 8 ≤ g.word) (hnp : md.np = false) (hdm : md.dmg = true) {mem' : Nat → Byte}
    (H : Shred g s.fl.mem mem' (icontent g.pageCount σ P)) :
    Good md g { s with fl := { s.fl with mem := mem' } } σ (fun i => (P i).rescan g mem') := by
  refine ⟨h.fs.rescan w hcf hW hnp hdm H, h.ps, fun i hi => ⟨fun p hp => ?_, fun p hp => ?_⟩⟩
  · obtain ⟨c, pre, it, post, f, h1, h2, h3⟩ := (h.pp i hi).1 p hp
    have hsame : ∀ x ∈ pre ++ [it], x.reread g mem' = x ∧ x.sound mem' = true := by
      intro x hx
      have hx' : x ∈ (P i).its := by
        rw [h1]; simp only [PK.its]
        rcases List.mem_append.1 hx with hx | hx
        · simp [hx]
        · simp at hx; simp [hx]
      refine Shred.absent w h.fs H.place (owned w h.fs hi hx') ?_
      unfold It.present
      rw [h2 x hx]
      simp [adapted_ne_zero]
    refine ⟨c, pre, it, SeqStorage.rescan g mem' post, f, ?_, h2, h3⟩
    have hpre : pre.filter (It.sound mem') = pre := List.filter_eq_self.2 (fun x hx => (hsame x (by simp [hx])).2)
    simp only [h1, PK.rescan, SeqStorage.rescan, List.filter_append, List.map_append]
    rw [List.filter_cons_of_pos (hsame it (by simp)).2, List.map_cons, hpre]
    rw [(hsame it (by simp)).1, List.map_congr_left (g := id) (fun x hx => (hsame x (by simp [hx])).1), List.map_id]
  · obtain ⟨c, its, h1⟩ := (h.pp i hi).2 p hp
    exact ⟨c, SeqStorage.rescan g mem' its, by simp only [h1, PK.rescan]⟩

theorem QI.rescan {s : St K} (h : QI md g s σ P) (hcf : md.cf = false) (hW : 8 ≤ g.word) (hnp : md.np = false) (hdm : md.dmg = true) {mem' : Nat → Byte}
    (H : Shred g s.fl.mem mem' (icontent g.pageCount σ P)) :
    QI md g { s with fl := { s.fl with mem := mem' } } σ (fun i => (P i).rescan g mem') := by
  refine ⟨h.fs.rescan w hcf hW hnp hdm H, h.sized, fun hd => (h.good hd).rescan w hcf hW hnp hdm H, ⟨fun i hi => ?_, ?_, h.ok.free⟩, h.log⟩
  · have := h.ok.nojunk i hi
    cases hpk : P i with
    | junk => exact absurd hpk this
    | blank => simp [PK.rescan]
    | corr => simp [PK.rescan]
    | used c its f => simp [PK.rescan]
  · intro _ h'; rw [hdm] at h'; simp at h'

theorem item_lenOk {mem : Nat → Byte} {it : It} (hl : it.data.length = it.hdr.len.toNat) :
    it.sound mem = decide (LenOk mem it.pair) := by
  have : it.hdr.len = BitVec.ofNat 16 it.data.length := by rw [hl]; simp
  unfold It.sound LenOk It.pair
  rw [this]

/-- What is left of a list of items after damage. -/
theorem intact_rescan {W : Nat} {mem' : Nat → Byte} (its : List It)
    (h0 : ∀ it ∈ its, it.sound mem' = decide (LenOk mem' it.pair))
    (h1 : ∀ it ∈ its, it.present = false → it.reread g mem' = it)
    (h2 : ∀ it ∈ its, it.present = true → InFlash W mem' it.pair → it.reread g mem' = it)
    (h3 : ∀ it ∈ its, it.present = true → LenOk mem' it.pair → ¬ InFlash W mem' it.pair → (it.reread g mem').present = false) :
    ((rescan g mem' its).filter It.present).map It.pair = intact W mem' ((its.filter It.present).map It.pair) := by
  induction its with
  | nil => rfl
  | cons it its ih =>
    have ih := ih (fun x hx => h0 x (by simp [hx])) (fun x hx => h1 x (by simp [hx])) (fun x hx => h2 x (by simp [hx]))
      (fun x hx => h3 x (by simp [hx]))
    unfold intact SeqStorage.rescan at ih ⊢
    have hs := h0 it (by simp)
    by_cases hlen : LenOk mem' it.pair
    · rw [List.filter_cons_of_pos (by rw [hs]; simpa using hlen), List.map_cons]
      cases hp : it.present with
      | false =>
        rw [h1 it (by simp) hp, List.filter_cons_of_neg (by simp [hp]), List.filter_cons_of_neg (by simp [hp])]
        exact ih
      | true =>
        rw [List.filter_cons_of_pos (p := It.present) (a := it) hp, List.map_cons]
        by_cases hin : InFlash W mem' it.pair
        · rw [h2 it (by simp) hp hin, List.filter_cons_of_pos (by simp [hp]), List.map_cons,
            List.filter_cons_of_pos (by simp [hin, hlen]), ih]
        · rw [List.filter_cons_of_neg (by simp [h3 it (by simp) hp hlen hin]), List.filter_cons_of_neg (by simp [hin]), ih]
    · rw [List.filter_cons_of_neg (by rw [hs]; simpa using hlen)]
      cases hp : it.present with
      | false => rw [List.filter_cons_of_neg (p := It.present) (a := it) (by simp [hp])]; exact ih
      | true =>
        rw [List.filter_cons_of_pos (p := It.present) (a := it) hp, List.map_cons, List.filter_cons_of_neg (by simp [hlen]), ih]

theorem Wreck.shred {fl : Flash} (h : FS md g fl σ P) {mem' : Nat → Byte}
    (H : Wreck g.word fl.mem mem' (((icontent g.pageCount σ P).filter It.present).map It.pair)) :
    Shred g fl.mem mem' (icontent g.pageCount σ P) := by
  have hplace : ∀ x, mem' x ≠ fl.mem x → ∃ it ∈ icontent g.pageCount σ P, it.present = true ∧ it.addr ≤ x ∧ x < it.hdr.next g it.addr := by
    intro x hx
    obtain ⟨p, hp, h1, h2⟩ := H.where_ x hx
    obtain ⟨it, hit, rfl⟩ := List.mem_map.1 hp
    obtain ⟨hit, hpr⟩ := List.mem_filter.1 hit
    refine ⟨it, hit, hpr, h1, ?_⟩
    rw [← (item_len w h hit).2]
    exact h2
  refine ⟨hplace, ?_⟩
  intro it hit hs k hk
  have hl := item_len w h hit
  cases hp : it.present with
  | false =>
    rw [(Shred.absent w h hplace hit hp).2] at hs
    simp at hs
  | true =>
    rw [item_lenOk w hl.1, decide_eq_false_iff_not] at hs
    exact H.lost it.pair (List.mem_map.2 ⟨it, List.mem_filter.2 ⟨hit, hp⟩, rfl⟩) hs k (by
      have : it.addr + k * g.word < it.addr + itemSize g.word it.data := by rw [hl.2]; exact hk
      show k * g.word < itemSize g.word it.data
      omega)

theorem Wreck.survive {fl : Flash} (h : FS md g fl σ P) {mem' : Nat → Byte}
    (H : Wreck g.word fl.mem mem' (((icontent g.pageCount σ P).filter It.present).map It.pair)) :
    ((rescan g mem' (icontent g.pageCount σ P)).filter It.present).map It.pair =
      intact g.word mem' (((icontent g.pageCount σ P).filter It.present).map It.pair) := by
  have hH := Wreck.shred w h H
  refine intact_rescan w _ (fun it hit => item_lenOk w (item_len w h hit).1) (fun it hit hp => (Shred.absent w h hH.place hit hp).1) ?_ ?_
  · intro it hit hp hin
    have hl := item_len w h hit
    have hd := item_dataOf w (mem := mem') hl.1
    obtain ⟨h1, h2⟩ := hin
    rw [hd] at h2
    have h3 : word32 mem' it.addr = it.hdr.crc := by
      unfold It.present at hp
      rw [decide_eq_true_eq] at hp
      rw [← hp]; exact h1
    unfold It.reread at h2 ⊢
    unfold word32 at h3
    simp only [It.pair] at h2
    rw [h2, h3]
  · intro it hit hp hlen hin
    have hl := item_len w h hit
    have hd := item_dataOf w (mem := mem') hl.1
    rcases H.seen it.pair (List.mem_map.2 ⟨it, List.mem_filter.2 ⟨hit, hp⟩, rfl⟩) hlen with h1 | h1
    · exact absurd h1 hin
    · unfold It.present
      rw [decide_eq_false_iff_not]
      rw [hd] at h1
      exact fun h => h1 h.symm

/-- Damaged items are gone, the others remain. -/
theorem HoldsAt.wreck {s : St K} {l : List (Nat × List Byte)} (h : HoldsAt md g s l) (hcf : md.cf = false) (hW : 8 ≤ g.word)
    (hnp : md.np = false) (hdm : md.dmg = true) {mem' : Nat → Byte} (H : Wreck g.word s.fl.mem mem' l) :
    HoldsAt md g { s with fl := { s.fl with mem := mem' } } (intact g.word mem' l) := by
  obtain ⟨σ, P, h, rfl⟩ := h
  refine ⟨σ, _, h.rescan w hcf hW hnp hdm (Wreck.shred w h.fs H), ?_⟩
  rw [icontent_rescan, Wreck.survive w h.fs H]

/-- The lengths of the items are in the flash. -/
theorem HoldsAt.lenOk {s : St K} {l : List (Nat × List Byte)} (h : HoldsAt md g s l) : ∀ p ∈ l, LenOk s.fl.mem p := by
  obtain ⟨σ, P, h, rfl⟩ := h
  intro p hp
  obtain ⟨it, hit, rfl⟩ := List.mem_map.1 hp
  obtain ⟨hit, _⟩ := List.mem_filter.1 hit
  have hs := item_lenOk w (mem := s.fl.mem) (item_len w h.fs hit).1
  obtain ⟨j, c, f, hj, hxi, hlt, hpk, l, _⟩ := item_place w h.fs hit
  rw [l.sound w hxi] at hs
  exact of_decide_eq_true hs.symm

end SeqStorage
