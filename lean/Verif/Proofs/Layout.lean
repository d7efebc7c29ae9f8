import Verif.Proofs.Run
/-
The sequence of items that a scan of a page meets, as a relation on the memory, and how programming
changes it.
-/

set_option linter.unusedSectionVars false

namespace SeqStorage
open M

variable {K : Type} [DecidableEq K]

/-- An item found in flash: where, with which header, and the bytes of its data. -/
structure It where
  addr : Nat
  hdr : Header
  data : List Byte
  deriving DecidableEq, Repr

/-- The stored checksum fits the data. -/
def It.present (it : It) : Bool := decide (adaptedCrc32 it.data = it.hdr.crc)

/-- `Layout cf g mem e a its f`: a scan from `a` with data end `e` meets the items `its` and stops at
the free address `f`. With `cf` (crash free) no unreadable spots are skipped. -/
inductive Layout (cf : Bool) (g : Geo) (mem : Nat → Byte) (e : Nat) : Nat → List It → Nat → Prop
  | done {a : Nat} (h : hdrAt g mem a e = .ok none) : Layout cf g mem e a [] a
  | gap {a f : Nat} {its : List It} (hcf : cf = false) (h : hdrAt g mem a e = .error .corrupted)
      (t : Layout cf g mem e (a + g.word) its f) : Layout cf g mem e a its f
  | item {a f : Nat} {its : List It} {hd : Header} (h : hdrAt g mem a e = .ok (some hd))
      (t : Layout cf g mem e (hd.next g a) its f) :
      Layout cf g mem e a (⟨a, hd, dataAt g mem a hd.len.toNat⟩ :: its) f

/-- What lies between the items: the bytes of every gap satisfy `T`, those of the last one as long as an item can
follow it. -/
def Gaps (T : List Byte → Prop) (g : Geo) (mem : Nat → Byte) (e : Nat) : Nat → List It → Nat → Prop
  | a, [], f => a ≤ f ∧ (f + g.hl ≤ e → T (readBytes mem a (f - a)))
  | a, it :: its, f => a ≤ it.addr ∧ T (readBytes mem a (it.addr - a)) ∧ Gaps T g mem e (it.hdr.next g it.addr) its f

namespace Gaps
variable {T : List Byte → Prop} {g : Geo} {mem mem' : Nat → Byte} {e a f f' : Nat} {its : List It}

theorem le (h : Gaps T g mem e a its f) : a ≤ f := by
  induction its generalizing a with
  | nil => exact h.1
  | cons it its ih =>
    have h1 := h.1
    have := ih h.2.2
    unfold Header.next at this
    omega

/-- Only the bytes in the gaps matter. -/
theorem congr (h : Gaps T g mem e a its f) (hm : ∀ x, a ≤ x → x < f → mem' x = mem x) : Gaps T g mem' e a its f := by
  induction its generalizing a with
  | nil =>
    refine ⟨h.1, fun hr => ?_⟩
    have h1 := h.1
    rw [readBytes_congr (mem' := mem) (fun x h2 h3 => hm x h2 (by omega))]
    exact h.2 hr
  | cons it its ih =>
    have h1 := h.1
    have h2 := h.2.2.le
    have h3 : it.addr ≤ it.hdr.next g it.addr := by unfold Header.next; omega
    refine ⟨h1, ?_, ih h.2.2 (fun x h4 h5 => hm x (by omega) h5)⟩
    rw [readBytes_congr (mem' := mem) (fun x h4 h5 => hm x h4 (by omega))]
    exact h.2.1

/-- A further item at the free address. -/
theorem snoc (h : Gaps T g mem e a its f) (hr : f + g.hl ≤ e) (h0 : T []) {it : It} (hi : it.addr = f) :
    Gaps T g mem e a (its ++ [it]) (it.hdr.next g it.addr) := by
  induction its generalizing a with
  | nil => exact ⟨by rw [hi]; exact h.1, by rw [hi]; exact h.2 hr, Nat.le_refl _, fun _ => by rw [Nat.sub_self]; exact h0⟩
  | cons it its ih => exact ⟨h.1, h.2.1, ih h.2.2⟩

/-- A further piece at the free address. -/
theorem grow (h : Gaps T g mem e a its f) (hr : f + g.hl ≤ e) (hf : f ≤ f')
    (hT : f' + g.hl ≤ e → ∀ t, T t → T (t ++ readBytes mem f (f' - f))) : Gaps T g mem e a its f' := by
  induction its generalizing a with
  | nil =>
    have h1 := h.1
    refine ⟨by omega, fun hr' => ?_⟩
    have := readBytes_append mem a (f - a) (f' - f)
    rw [show f - a + (f' - f) = f' - a by omega, show a + (f - a) = f by omega] at this
    rw [this]
    exact hT hr' _ (h.2 hr)
  | cons it its ih => exact ⟨h.1, h.2.1, ih h.2.2⟩

/-- Changing the header of an item. -/
theorem change {pre post : List It} {it it' : It} (h : Gaps T g mem e a (pre ++ it :: post) f) (ha : it'.addr = it.addr)
    (hl : it'.hdr.len = it.hdr.len) (hm : ∀ x, x < it.addr ∨ it.addr + g.hl ≤ x → mem' x = mem x) :
    Gaps T g mem' e a (pre ++ it' :: post) f := by
  induction pre generalizing a with
  | nil =>
    have hn : it'.hdr.next g it'.addr = it.hdr.next g it.addr := by unfold Header.next; rw [ha, hl]
    refine ⟨by rw [ha]; exact h.1, ?_, ?_⟩
    · have h1 := h.1
      rw [ha, readBytes_congr (mem' := mem) (fun x h2 h3 => hm x (by omega))]
      exact h.2.1
    · rw [hn]
      refine h.2.2.congr (fun x h1 h2 => hm x (Or.inr ?_))
      unfold Header.next at h1
      omega
  | cons p pre ih =>
    refine ⟨h.1, ?_, ih h.2.2⟩
    have h1 := h.1
    have h2 : ∀ {l a f}, Gaps T g mem e a (l ++ it :: post) f → a ≤ it.addr := by
      intro l
      induction l with
      | nil => intro a f h; exact h.1
      | cons q l ihl =>
        intro a f h
        have h3 := h.1
        have := ihl h.2.2
        unfold Header.next at this
        omega
    have h3 := h2 h.2.2
    have h4 : p.addr ≤ p.hdr.next g p.addr := by unfold Header.next; omega
    rw [readBytes_congr (mem' := mem) (fun x h5 h6 => hm x (by omega))]
    exact h.2.1

/-- The gap before an item. -/
theorem split {it : It} {post : List It} (h : Gaps T g mem e a (it :: post) f) : a ≤ it.addr ∧ T (readBytes mem a (it.addr - a)) :=
  ⟨h.1, h.2.1⟩

end Gaps

namespace Layout
variable {cf : Bool} {g : Geo} {mem mem' : Nat → Byte} {e a f : Nat} {its : List It}

theorem weaken (l : Layout cf g mem e a its f) : Layout false g mem e a its f := by
  induction l with
  | done h => exact .done h
  | gap _ h _ ih => exact .gap rfl h ih
  | item h _ ih => exact .item h ih

theorem det {cf' : Bool} {its' : List It} {f' : Nat} (l : Layout cf g mem e a its f)
    (l' : Layout cf' g mem e a its' f') : its = its' ∧ f = f' := by
  induction l generalizing its' f' with
  | done h =>
    cases l' with
    | done => exact ⟨rfl, rfl⟩
    | gap _ h' => rw [h] at h'; simp at h'
    | item h' => rw [h] at h'; simp at h'
  | gap _ h _ ih =>
    cases l' with
    | done h' => rw [h] at h'; simp at h'
    | gap _ h' t' => exact ih t'
    | item h' => rw [h] at h'; simp at h'
  | item h _ ih =>
    cases l' with
    | done h' => rw [h] at h'; simp at h'
    | gap _ h' => rw [h] at h'; simp at h'
    | item h' t' =>
      rw [h] at h'
      simp only [Except.ok.injEq, Option.some.injEq] at h'
      subst h'
      obtain ⟨h1, h2⟩ := ih t'
      subst h1; subst h2
      exact ⟨rfl, rfl⟩

theorem next_gt (w : g.WF) (h : Header) (a : Nat) : a + 8 ≤ h.next g a := by
  have := w.hl_ge; unfold Header.next; omega

theorem next_dvd (w : g.WF) {h : Header} (ha : g.word ∣ a) : g.word ∣ h.next g a := by
  unfold Header.next
  exact Nat.dvd_add (Nat.dvd_add ha w.hl_dvd) (w.roundUp_dvd _)

theorem le (w : g.WF) (l : Layout cf g mem e a its f) : a ≤ f := by
  induction l with
  | done h => omega
  | gap _ h _ ih => omega
  | @item a f its hd h _ ih => have := next_gt w hd a; omega

theorem dvd (w : g.WF) (l : Layout cf g mem e a its f) (ha : g.word ∣ a) : g.word ∣ f := by
  induction l with
  | done h => exact ha
  | gap _ h _ ih => exact ih (Nat.dvd_add ha (Nat.dvd_refl _))
  | item h _ ih => exact ih (next_dvd w ha)

theorem error_lt (h : hdrAt g mem a e = .error .corrupted) : a + g.hl ≤ e := by
  unfold hdrAt at h
  split at h
  · simp at h
  · omega

theorem le_end (w : g.WF) (l : Layout cf g mem e a its f) (ha : a ≤ e) (hw : g.word ∣ a) : f ≤ e := by
  induction l with
  | done h => exact ha
  | gap _ h _ ih =>
    have := error_lt h
    apply ih _ (Nat.dvd_add hw (Nat.dvd_refl _))
    have : g.word ≤ g.hl := Nat.le_of_dvd (by have := w.hl_ge; omega) w.hl_dvd
    omega
  | item h _ ih => exact ih (hdrAt_some_iff.1 h).2.2 (next_dvd w hw)

/-- Every item of a layout. -/
theorem mem_item (w : g.WF) (l : Layout cf g mem e a its f) {it : It} (hi : it ∈ its) :
    a ≤ it.addr ∧ hdrAt g mem it.addr e = .ok (some it.hdr) ∧ it.hdr.next g it.addr ≤ f ∧
      it.data = dataAt g mem it.addr it.hdr.len.toNat := by
  induction l with
  | done h => simp at hi
  | gap _ h t ih =>
    obtain ⟨h1, h2⟩ := ih hi
    exact ⟨by omega, h2⟩
  | @item a f its hd h t ih =>
    have hn := next_gt w hd a
    rcases List.mem_cons.1 hi with rfl | hi
    · exact ⟨Nat.le_refl _, h, t.le w, rfl⟩
    · obtain ⟨h1, h2⟩ := ih hi
      exact ⟨by omega, h2⟩

theorem mem_dvd (w : g.WF) (l : Layout cf g mem e a its f) (ha : g.word ∣ a) {it : It} (hi : it ∈ its) :
    g.word ∣ it.addr := by
  induction l with
  | done h => simp at hi
  | gap _ h t ih => exact ih (Nat.dvd_add ha (Nat.dvd_refl _)) hi
  | item h t ih =>
    rcases List.mem_cons.1 hi with rfl | hi
    · exact ha
    · exact ih (next_dvd w ha) hi

/-- The layout only depends on the bytes of the page. -/
theorem congr (w : g.WF) (l : Layout cf g mem e a its f) (h : ∀ x, a ≤ x → x < e → mem' x = mem x) :
    Layout cf g mem' e a its f := by
  have hb : ∀ b, a ≤ b → hdrAt g mem' b e = hdrAt g mem b e := by
    intro b hb
    unfold hdrAt
    by_cases hc : b + g.hl > e
    · rw [if_pos hc, if_pos hc]
    · rw [if_neg hc, if_neg hc, readBytes_congr (mem := mem') (mem' := mem)]
      intro x h1 h2; exact h x (by omega) (by omega)
  induction l with
  | done h' => exact .done (by rw [hb _ (Nat.le_refl _)]; exact h')
  | gap hcf h' _ ih =>
    exact .gap hcf (by rw [hb _ (Nat.le_refl _)]; exact h')
      (ih (fun x h1 h2 => h x (by omega) h2) (fun b h1 => hb b (by omega)))
  | @item a f its hd h' t ih =>
    have hn := next_gt w hd a
    have h3 := (hdrAt_some_iff.1 h').2.2
    have : dataAt g mem' a hd.len.toNat = dataAt g mem a hd.len.toNat := by
      unfold dataAt
      apply readBytes_congr
      intro x h1 h2
      have := w.le_roundUp hd.len.toNat
      unfold Header.next at h3
      exact h x (by omega) (by omega)
    rw [← this]
    exact .item (by rw [hb _ (Nat.le_refl _)]; exact h')
      (ih (fun x h1 h2 => h x (by omega) h2) (fun b h1 => hb b (by omega)))

/-- Replacing everything from the free address on. The unreadable spots that reach beyond the free address must stay
unreadable. -/
theorem extend (w : g.WF) {T : List Byte → Prop} {p : Nat} (l : Layout cf g mem e a its f)
    (ha : g.word ∣ a) (hx : ∀ x, a ≤ x → x < f → mem' x = mem x)
    (hp : p ≤ a) (hpd : g.word ∣ p) (gs : cf = false → g.word < 8 → Gaps T g mem e p its f)
    (hs : ∀ p b, cf = false → g.word ∣ p → p ≤ b → (g.word < 8 → Gaps T g mem e p [] f) → g.word ∣ b → b < f →
      f < b + g.hl → hdrAt g mem b e = .error .corrupted → hdrAt g mem' b e = .error .corrupted)
    {its2 : List It} {f2 : Nat} (l2 : Layout cf g mem' e f its2 f2) :
    Layout cf g mem' e a (its ++ its2) f2 := by
  induction l generalizing p with
  | done h' => exact l2
  | @gap a f its hcf h' t ih =>
    have hw := w.word_pos
    have := t.le w
    refine .gap hcf ?_ (ih (Nat.dvd_add ha (Nat.dvd_refl _)) (fun x h1 h2 => hx x (by omega) h2) (by omega) hpd gs hs l2)
    rcases Nat.lt_or_ge f (a + g.hl) with h1 | h1
    · have hnil : its = [] := by
        cases its with
        | nil => rfl
        | cons it its =>
          have h2 := t.mem_item w (List.mem_cons_self (a := it) (l := its))
          have h3 := h2.2.2.1
          unfold Header.next at h3
          omega
      exact hs p a hcf hpd hp (fun hW => hnil ▸ gs hcf hW) ha (by omega) h1 h'
    · unfold hdrAt at h' ⊢
      rw [readBytes_congr (mem := mem') (mem' := mem)]
      · exact h'
      · intro x hx1 hx2; exact hx x (by omega) (by omega)
  | @item a f its hd h' t ih =>
    have hn := next_gt w hd a
    have h3 := hdrAt_some_iff.1 h'
    have hle := t.le w
    have hr := w.le_roundUp hd.len.toNat
    have hnn : hd.next g a = a + g.hl + g.roundUp hd.len.toNat := rfl
    have : dataAt g mem' a hd.len.toNat = dataAt g mem a hd.len.toNat := by
      unfold dataAt
      apply readBytes_congr
      intro x h1 h2
      exact hx x (by omega) (by omega)
    rw [← this]
    refine .item (hdrAt_some h3.1 ?_ h3.2.2)
      (ih (next_dvd w ha) (fun x h1 h2 => hx x (by omega) h2) (Nat.le_refl _) (next_dvd w ha)
        (fun hcf hW => (gs hcf hW).2.2) hs l2)
    rw [readBytes_congr (mem' := mem)]
    · exact h3.2.1
    · intro x h1 h2; exact hx x h1 (by omega)

/-- Blank flash has no items. -/
theorem blank (hb : ∀ x, a ≤ x → x < e → mem x = 0xff#8) : Layout cf g mem e a [] a := by
  apply Layout.done
  rw [hdrAt_none_iff]
  by_cases hc : e < a + g.hl
  · exact Or.inl hc
  · right
    rw [readBytes_blank (fun x h1 h2 => hb x h1 (by omega))]
    exact decode_blank _

end Layout

/-! ### Writing an item -/

/-- What `write_raw` programs for an item. -/
def itemBytes (g : Geo) (h : Header) (d : List Byte) : List Byte :=
  h.encode g ++ (d ++ List.replicate (g.roundUp d.length - d.length) 0#8)

theorem itemBytes_length {g : Geo} (w : g.WF) (h : Header) (d : List Byte) :
    (itemBytes g h d).length = g.hl + g.roundUp d.length := by
  have := w.le_roundUp d.length
  simp [itemBytes, encode_length w]; omega

/-- The data of which only the first `k` bytes were programmed. -/
def tornData (d : List Byte) (k : Nat) : List Byte := d.take k ++ List.replicate (d.length - k) 0xff#8

theorem tornData_length (d : List Byte) (k : Nat) : (tornData d k).length = d.length := by
  simp [tornData]; omega

theorem tornData_full (d : List Byte) {k : Nat} (h : d.length ≤ k) : tornData d k = d := by
  simp [tornData, List.take_of_length_le h, Nat.sub_eq_zero_of_le h]

/-- Four bytes that would be taken for a length with its checksum. -/
def Fake (bs : List Byte) : Prop := crc16 [bs.getD 0 0#8, bs.getD 1 0#8] = ofLe16 (bs.getD 2 0#8) (bs.getD 3 0#8)

instance (bs : List Byte) : Decidable (Fake bs) := inferInstanceAs (Decidable (_ = _))

/-- The eight bytes of a header. -/
def headBytes (h : Header) : List Byte := le32 h.crc ++ (le16 h.len ++ le16 (crc16 (le16 h.len)))

theorem Header.eq_ofData {h : Header} {d : List Byte} (hl : d.length = h.len.toNat) (hc : h.crc = adaptedCrc32 d) : h = Header.ofData d := by
  cases h
  simp only at hl hc
  simp [Header.ofData, hl, hc]

/-- What interrupted writes of headers leave behind on flash with words of `W` bytes: one after the other the first `k` bytes
of headers for data in `D`, up to the end of a word, less when they end in erased bytes. -/
inductive Scraps (W : Nat) (D : List Byte → Prop) : List Byte → Prop
  | nil : Scraps W D []
  | add {t bs d : List Byte} {k : Nat} (h : Scraps W D t) (hd : D d) (hk : 0 < k ∧ k < 8) (hW : W ∣ bs.length) (hn : bs.length < k + W)
      (hb : ∀ i, bs.getD i 0xff#8 = (tornData (headBytes (Header.ofData d)) k).getD i 0xff#8) : Scraps W D (t ++ bs)

/-- On flash with words of `W` bytes, no spot among such scraps looks like a header once the header of further data in `D`
was written after it, whether that header is complete, was torn or lost the first bytes of its checksum. -/
def NoMix (W : Nat) (D : List Byte → Prop) : Prop :=
  ∀ t i d k, Scraps W D t → W ∣ i → i < t.length → t.length < i + 8 → D d →
    (0 < k → ¬ Fake ((t ++ tornData (headBytes (Header.ofData d)) k).drop (i + 4))) ∧
    ¬ Fake ((t ++ headBytes { Header.ofData d with crc := clearedCrc (adaptedCrc32 d) k }).drop (i + 4))

/-- An interrupted write of `d` that differs from `d` is told apart by the stored checksum. -/
def TornSeen (d : List Byte) : Prop :=
  ∀ k, adaptedCrc32 (tornData d k) = adaptedCrc32 d → tornData d k = d

/-- Data of the kind `D` whose interrupted writes are told apart by the stored checksum. -/
def NoTorn (D : List Byte → Prop) (d : List Byte) : Prop := TornSeen d ∧ D d

theorem Scraps.dvd {W : Nat} {D : List Byte → Prop} {t : List Byte} (h : Scraps W D t) : W ∣ t.length := by
  induction h with
  | nil => exact ⟨0, rfl⟩
  | add _ _ _ hW _ _ ih => rw [List.length_append]; exact Nat.dvd_add ih hW

theorem Scraps.mono {W : Nat} {D D' : List Byte → Prop} (hD : ∀ d, D d → D' d) {t : List Byte} (h : Scraps W D t) :
    Scraps W D' t := by
  induction h with
  | nil => exact .nil
  | add _ hd hk hW hn hb ih => exact .add ih (hD _ hd) hk hW hn hb

theorem NoMix.mono {W : Nat} {D D' : List Byte → Prop} (h : NoMix W D') (hD : ∀ d, D d → D' d) : NoMix W D :=
  fun t i d k ht h1 h2 h3 hd => h t i d k (ht.mono hD) h1 h2 h3 (hD d hd)

/-- With words of eight bytes or more a header is written at once. -/
theorem noMix_wide {W : Nat} (hW : 8 ≤ W) (D : List Byte → Prop) : NoMix W D := by
  intro t i d k ht h1 h2 h3
  have := Nat.le_of_dvd (by omega) (Nat.dvd_sub ht.dvd h1)
  omega

/-- Four bytes that are never taken for a length with its checksum, neither when only the first of them were written nor when
the first of them were cleared. -/
def Plain (c : BitVec 32) : Prop := ∀ k, ¬ Fake (tornData (le32 c) k) ∧ ¬ Fake (le32 (clearedCrc c k))

theorem plain_of {c : BitVec 32} (h : ∀ k < 5, ¬ Fake (tornData (le32 c) k) ∧ ¬ Fake (le32 (clearedCrc c k))) : Plain c := by
  intro k
  rcases Nat.lt_or_ge k 5 with hk | hk
  · exact h k hk
  · have := h 4 (by decide)
    rw [tornData_full _ (by simp [le32]), clearedCrc_full _ (by decide)] at this
    rw [tornData_full _ (by simp [le32]; omega), clearedCrc_full _ (by omega)]
    exact this

theorem fake_congr {a b : List Byte} (h : ∀ i, i < 4 → a.getD i 0#8 = b.getD i 0#8) : Fake a ↔ Fake b := by
  unfold Fake
  rw [h 0 (by decide), h 1 (by decide), h 2 (by decide), h 3 (by decide)]

/-- With words of four bytes only the checksums of the data matter. -/
theorem noMix_four {D : List Byte → Prop} (hD : ∀ d, D d → Plain (adaptedCrc32 d)) : NoMix 4 D := by
  intro t i d k ht h1 h2 h3 hd
  have h4 : t.length = i + 4 := by
    obtain ⟨x, hx⟩ := ht.dvd
    obtain ⟨y, hy⟩ := h1
    omega
  rw [← h4, List.drop_left, List.drop_left]
  refine ⟨fun _ => ?_, ?_⟩
  · rw [fake_congr (b := tornData (le32 (adaptedCrc32 d)) k)]
    · exact (hD d hd k).1
    · intro j hj
      rcases k with _ | _ | _ | _ | k <;> rcases j with _ | _ | _ | _ | j <;> first | omega | simp [tornData, headBytes, Header.ofData, le32, le16, List.replicate_succ]
  · rw [fake_congr (b := le32 (clearedCrc (adaptedCrc32 d) k))]
    · exact (hD d hd k).2
    · intro j hj
      rcases j with _ | _ | _ | _ | j <;> first | omega | simp [headBytes, le32]

/-- What is seen across the free address `f`. -/
theorem window {mem mem' : Nat → Byte} {p b f : Nat} {X : List Byte} (hX : ∀ i, i < 8 → mem' (f + i) = X.getD i 0#8)
    (hm : ∀ x, p ≤ x → x < f → mem' x = mem x) (hpb : p ≤ b) (hbf : b < f)
    (h : ¬ Fake ((readBytes mem p (f - p) ++ X).drop (b - p + 4))) : ¬ Fake (readBytes mem' (b + 4) 4) := by
  rwa [fake_congr (b := (readBytes mem p (f - p) ++ X).drop (b - p + 4))]
  intro i hi
  rw [getD_readBytes _ _ _ _ hi]
  simp only [List.getD_eq_getElem?_getD, List.getElem?_drop]
  rcases Nat.lt_or_ge (b + 4 + i) f with h1 | h1
  · rw [List.getElem?_append_left (by simp; omega), ← List.getD_eq_getElem?_getD, getD_readBytes _ _ _ _ (by omega),
      hm _ (by omega) h1]
    congr 1; omega
  · rw [List.getElem?_append_right (by simp; omega), ← List.getD_eq_getElem?_getD, readBytes_length,
      show b - p + 4 + i - (f - p) = b + 4 + i - f by omega, ← hX _ (by omega)]
    congr 1; omega

/-- A spot whose second half cannot be a length with its checksum is unreadable. -/
theorem hdrAt_fake {g : Geo} (w : g.WF) {mem : Nat → Byte} {b e : Nat} (hbe : b + g.hl ≤ e) {x : Nat} (hx1 : b ≤ x)
    (hx2 : x < b + g.hl) (hx : mem x ≠ 0xff#8) (hF : ¬ Fake (readBytes mem (b + 4) 4)) :
    hdrAt g mem b e = .error .corrupted := by
  have hl := w.hl_ge
  unfold hdrAt
  rw [if_neg (by omega)]
  cases hd : decodeHeader (readBytes mem b g.hl) with
  | error er => rfl
  | ok o =>
    cases o with
    | none =>
      rw [decode_none_iff] at hd
      refine absurd (hd (mem x) ?_) hx
      refine List.mem_iff_getElem.2 ⟨x - b, by simp; omega, ?_⟩
      rw [readBytes_getElem]; congr 1; omega
    | some h =>
      rw [decode_some_iff (by simpa using hl)] at hd
      refine absurd ?_ hF
      have := hd.1
      unfold Fake
      simp only [getD_readBytes _ _ _ _ (show 4 < g.hl by omega), getD_readBytes _ _ _ _ (show 5 < g.hl by omega),
        getD_readBytes _ _ _ _ (show 6 < g.hl by omega), getD_readBytes _ _ _ _ (show 7 < g.hl by omega)] at this
      simp only [getD_readBytes _ _ _ _ (show 0 < 4 by decide), getD_readBytes _ _ _ _ (show 1 < 4 by decide),
        getD_readBytes _ _ _ _ (show 2 < 4 by decide), getD_readBytes _ _ _ _ (show 3 < 4 by decide), Nat.add_assoc]
      exact this

/-- With words of at least eight bytes a header is one word. -/
theorem straddle {g : Geo} (w : g.WF) {b f : Nat} (hb : g.word ∣ b) (hf : g.word ∣ f) (h1 : b < f) (h2 : f < b + g.hl) :
    g.word < 8 ∧ f < b + 8 := by
  obtain ⟨q, hq⟩ := Nat.dvd_sub hf hb
  obtain ⟨r, hr⟩ := w.hl_dvd
  have h3 := w.hl_lt
  have hqr : q < r := by
    apply Nat.lt_of_mul_lt_mul_left (a := g.word)
    omega
  have h4 : g.word * (q + 1) ≤ g.word * r := Nat.mul_le_mul_left _ hqr
  rw [Nat.mul_succ] at h4
  have h5 : 0 < q := by
    rcases Nat.eq_zero_or_pos q with rfl | h
    · omega
    · exact h
  have h6 : g.word * 1 ≤ g.word * q := Nat.mul_le_mul_left _ h5
  omega

theorem readBytes_program_torn {mem : Nat → Byte} {a n k : Nat} {bs : List Byte} (hn : bs.length = n)
    (hb : ∀ x, a ≤ x → x < a + n → mem x = 0xff#8) :
    readBytes (programBytes mem a (bs.take k)) a n = tornData bs k := by
  apply List.ext_getElem (by simp [tornData_length, hn])
  intro i h1 h2
  rw [readBytes_getElem]
  simp only [readBytes_length] at h1
  unfold programBytes
  rw [hb (a + i) (by omega) (by omega)]
  simp only [tornData]
  by_cases hk : i < k
  · rw [if_pos (by simp; omega), Nat.add_sub_cancel_left, and_ff]
    rw [List.getElem_append_left (by simp; omega)]
    subst hn
    simp [List.getD, hk, h1]
  · rw [if_neg (by simp; omega)]
    rw [List.getElem_append_right (by simp; omega)]
    simp

theorem headBytes_length (h : Header) : (headBytes h).length = 8 := by simp [headBytes, le32, le16]

theorem encode_head (g : Geo) (h : Header) : h.encode g = headBytes h ++ List.replicate (g.hl - 8) 0xff#8 := by
  rw [encode_eq]; simp [headBytes, le32, le16]

theorem tornHeader_getD (g : Geo) (h : Header) (k : Nat) {i : Nat} (hi : i < 8) (hg : 8 ≤ g.hl) (x : Byte) :
    (tornHeader g h k).getD i x = (tornData (headBytes h) k).getD i x := by
  have hl := headBytes_length h
  unfold tornHeader tornData
  rw [encode_head]
  simp only [List.getD_eq_getElem?_getD]
  by_cases hk : i < k
  · rw [List.getElem?_append_left (by simp [hl]; omega), List.getElem?_append_left (by simp [hl]; omega),
      List.getElem?_take, List.getElem?_take, if_pos hk, if_pos hk, List.getElem?_append_left (by omega)]
  · rw [List.getElem?_append_right (by simp [hl]; omega), List.getElem?_append_right (by simp [hl]; omega)]
    simp only [List.getElem?_replicate, List.length_take, List.length_append, List.length_replicate, hl]
    rw [if_pos (by omega), if_pos (by omega)]

/-- After an interrupted header the scan finds the end of what was written. -/
theorem Layout.tail {cf : Bool} {g : Geo} (w : g.WF) {mem : Nat → Byte} {e f k : Nat} (hcf : cf = false) (hk : k < 8)
    (hb : ∀ x, f + k ≤ x → x < e → mem x = 0xff#8) (n : Nat) : ∀ b, f < b → f + k ≤ b + n →
    ∃ f', b ≤ f' ∧ (f' = b ∨ f' < f + k + g.word) ∧ (f' + g.hl ≤ e → ∀ x, f' ≤ x → x < e → mem x = 0xff#8) ∧
      Layout cf g mem e b [] f' := by
  induction n with
  | zero =>
    intro b h1 h2
    have h3 : ∀ x, b ≤ x → x < e → mem x = 0xff#8 := fun x h4 h5 => hb x (by omega) h5
    exact ⟨b, Nat.le_refl _, Or.inl rfl, fun _ => h3, Layout.blank h3⟩
  | succ n ih =>
    intro b h1 h2
    have hwp := w.word_pos
    have hl8 := w.hl_ge
    by_cases hr : e < b + g.hl
    · exact ⟨b, Nat.le_refl _, Or.inl rfl, fun h => by omega, .done (hdrAt_none_iff.2 (Or.inl hr))⟩
    · by_cases hff : ∀ x, b ≤ x → x < e → mem x = 0xff#8
      · exact ⟨b, Nat.le_refl _, Or.inl rfl, fun _ => hff, Layout.blank hff⟩
      · obtain ⟨f', h3, h6, h4, h5⟩ := ih (b + g.word) (by omega) (by omega)
        have hbk : b < f + k := by
          apply Classical.byContradiction
          intro h
          exact hff (fun x hx1 hx2 => hb x (by omega) hx2)
        refine ⟨f', by omega, by omega, h4, .gap hcf ?_ h5⟩
        apply Classical.byContradiction
        intro hne
        apply hff
        intro x hx1 hx2
        apply Classical.byContradiction
        intro hx
        have hxk : x < f + k := by
          apply Classical.byContradiction
          intro h; exact hx (hb x (by omega) hx2)
        refine hne (hdrAt_fake w (by omega) hx1 (by omega) hx ?_)
        intro hF
        unfold Fake at hF
        simp only [getD_readBytes _ _ _ _ (show 2 < 4 by decide), getD_readBytes _ _ _ _ (show 3 < 4 by decide)] at hF
        rw [hb (b + 4 + 2) (by omega) (by omega), hb (b + 4 + 3) (by omega) (by omega)] at hF
        exact crc16_ne _ hF

/-- Program an item partly or completely at the free address. -/
theorem Layout.append {cf : Bool} {g : Geo} (w : g.WF) {mem : Nat → Byte} {e a f : Nat} {its : List It}
    (l : Layout cf g mem e a its f) (ha : g.word ∣ a) (hae : a ≤ e)
    (hb : ∀ x, f ≤ x → x < e → mem x = 0xff#8) {h : Header} {d : List Byte} (hd : d.length = h.len.toNat)
    (hlow : h.crc.setWidth 8 ≠ 0xff#8) (hfit : h.next g f ≤ e) {D : List Byte → Prop}
    (hc : cf = false → g.word < 8 → NoMix g.word D) (hpl : cf = false → g.word < 8 → ∃ d0, D d0 ∧ h = Header.ofData d0)
    (gs : cf = false → g.word < 8 → Gaps (Scraps g.word D) g mem e a its f) {k : Nat}
    (hk : cf = true → k = g.hl + g.roundUp d.length) (hk2 : k ≤ g.hl + g.roundUp d.length) :
    (k = 0 ∧ Layout cf g (programBytes mem f ((itemBytes g h d).take k)) e a its f ∧
      (cf = false → g.word < 8 → Gaps (Scraps g.word D) g (programBytes mem f ((itemBytes g h d).take k)) e a its f)) ∨
    (0 < k ∧ k < 8 ∧ cf = false ∧ ∃ f', f < f' ∧
      (f' + g.hl ≤ e → ∀ x, f' ≤ x → x < e → programBytes mem f ((itemBytes g h d).take k) x = 0xff#8) ∧
      Layout cf g (programBytes mem f ((itemBytes g h d).take k)) e a its f' ∧
      (cf = false → g.word < 8 → Gaps (Scraps g.word D) g (programBytes mem f ((itemBytes g h d).take k)) e a its f')) ∨
    (0 < k ∧ Layout cf g (programBytes mem f ((itemBytes g h d).take k)) e a
      (its ++ [⟨f, h, tornData d (k - g.hl)⟩]) (h.next g f) ∧
      (cf = false → g.word < 8 → Gaps (Scraps g.word D) g (programBytes mem f ((itemBytes g h d).take k)) e a
        (its ++ [⟨f, h, tornData d (k - g.hl)⟩]) (h.next g f))) := by
  have hfe := l.le_end w hae ha
  have hl8 := w.hl_ge
  have hnn : h.next g f = f + g.hl + g.roundUp d.length := by unfold Header.next; rw [hd]
  have hr := w.le_roundUp d.length
  have hbl := itemBytes_length w h d
  have hel := encode_length w h
  generalize hmem : programBytes mem f ((itemBytes g h d).take k) = mem'
  have hout : ∀ x, x < f ∨ f + k ≤ x → mem' x = mem x := by
    intro x hx
    rw [← hmem]
    apply programBytes_outside
    rw [List.length_take]; omega
  rcases Nat.eq_zero_or_pos k with rfl | hpos
  · left
    refine ⟨rfl, ?_⟩
    rw [← hmem, List.take_zero, programBytes_nil]; exact ⟨l, gs⟩
  · have hhdr : readBytes mem' f g.hl = tornHeader g h k := by
      have h1 : readBytes mem' f g.hl = readBytes (programBytes mem f ((h.encode g).take k)) f g.hl := by
        apply readBytes_congr
        intro x h1 h2
        rw [← hmem]
        unfold programBytes itemBytes
        simp only [List.length_take, List.length_append, List.length_replicate, hel]
        by_cases hx : x < f + k
        · rw [if_pos (by omega), if_pos (by omega)]
          congr 1
          simp only [List.getD]
          congr 1
          rw [List.getElem?_take, List.getElem?_take, List.getElem?_append_left (by omega)]
        · rw [if_neg (by omega), if_neg (by omega)]
      rw [h1, readBytes_program_torn hel (fun x h1 h2 => hb x h1 (by omega))]
      simp [tornData, tornHeader, hel]
    have hblank2 : ∀ x, f + k ≤ x → x < e → mem' x = 0xff#8 := by
      intro x h1 h2; rw [hout x (Or.inr h1)]; exact hb x (by omega) h2
    have hfirst : mem' f ≠ 0xff#8 := by
      have h1 := getD_readBytes mem' f g.hl 0 (by omega) 0#8
      rw [hhdr] at h1
      rw [Nat.add_zero] at h1
      rw [← h1]
      unfold tornHeader
      rw [encode_eq]
      obtain ⟨j, rfl⟩ : ∃ j, k = j + 1 := ⟨k - 1, by omega⟩
      exact hlow
    have hX : ∀ i, i < 8 → mem' (f + i) = (tornData (headBytes h) k).getD i 0#8 := by
      intro i hi
      rw [← tornHeader_getD g h k hi hl8, ← hhdr, getD_readBytes _ _ _ _ (by omega)]
    have hs : ∀ p b, cf = false → g.word ∣ p → p ≤ b → (g.word < 8 → Gaps (Scraps g.word D) g mem e p [] f) → g.word ∣ b → b < f →
        f < b + g.hl → hdrAt g mem b e = .error .corrupted → hdrAt g mem' b e = .error .corrupted := by
      intro p b h1 hp hpb hg h2 h3 h4 h5
      obtain ⟨h6, h7⟩ := straddle w h2 (l.dvd w ha) h3 h4
      refine hdrAt_fake w (Layout.error_lt h5) (by omega : b ≤ f) h4 hfirst ?_
      obtain ⟨d0, hd0, rfl⟩ := hpl h1 h6
      refine window hX (fun x _ h8 => hout x (Or.inl h8)) hpb h3 ?_
      refine (hc h1 h6 _ (b - p) d0 k ((hg h6).2 (by omega)) (Nat.dvd_sub h2 hp) ?_ ?_ hd0).1 hpos
      · rw [readBytes_length]; omega
      · rw [readBytes_length]; omega
    have gs' : cf = false → g.word < 8 → Gaps (Scraps g.word D) g mem' e a its f :=
      fun h1 h2 => (gs h1 h2).congr (fun x _ h4 => hout x (Or.inl h4))
    right
    have hcomplete : tornHeader g h k = h.encode g →
        Layout cf g mem' e a (its ++ [⟨f, h, tornData d (k - g.hl)⟩]) (h.next g f) := by
      intro ht
      apply l.extend w ha (fun x _ h2 => hout x (Or.inl h2)) (Nat.le_refl _) ha gs hs
      have hdat : dataAt g mem' f h.len.toNat = tornData d (k - g.hl) := by
        unfold dataAt
        rw [← hd]
        have : readBytes mem' (f + g.hl) d.length =
            readBytes (programBytes mem (f + g.hl) (d.take (k - g.hl))) (f + g.hl) d.length := by
          apply readBytes_congr
          intro x h1 h2
          rw [← hmem]
          unfold programBytes itemBytes
          simp only [List.length_take, List.length_append, List.length_replicate, hel]
          by_cases hx : x < f + k
          · rw [if_pos (by omega), if_pos (by omega)]
            congr 1
            simp only [List.getD]
            congr 1
            rw [List.getElem?_take, List.getElem?_take, if_pos (by omega), if_pos (by omega),
              List.getElem?_append_right (by omega), hel, List.getElem?_append_left (by omega)]
            congr 1; omega
          · rw [if_neg (by omega), if_neg (by omega)]
        rw [this, readBytes_program_torn rfl (fun x h1 h2 => hb x (by omega) (by omega))]
      rw [← hdat]
      refine .item (hdrAt_some (by omega) (by rw [hhdr, ht]; exact decode_encode g h) hfit) ?_
      apply Layout.blank
      intro x h1 h2
      exact hblank2 x (by omega) h2
    rcases decode_torn w h hpos hlow with ht | ht
    · have h8 : k < 8 := by
        rcases Nat.lt_or_ge k 8 with h8 | h8
        · exact h8
        · rw [tornHeader_full w h h8, decode_encode] at ht; simp at ht
      have hcf : cf = false := by
        cases cf with
        | false => rfl
        | true => have := hk rfl; omega
      left
      have hat : hdrAt g mem' f e = .error .corrupted := by
        unfold hdrAt
        rw [if_neg (by omega), hhdr, ht]
      refine ⟨hpos, h8, hcf, ?_⟩
      have hwp := w.word_pos
      obtain ⟨f', h1, h9, h2, h3⟩ := Layout.tail w (mem := mem') hcf h8 hblank2 k (f + g.word) (by omega) (by omega)
      refine ⟨f', by omega, h2, ?_, fun h4 h5 => (gs' h4 h5).grow (by omega) (by omega) fun hr t hT => ?_⟩
      · have := l.extend w (mem' := mem') (its2 := []) (f2 := f') ha (fun x _ h2 => hout x (Or.inl h2)) (Nat.le_refl _) ha gs hs
        rw [List.append_nil] at this
        exact this (.gap hcf hat h3)
      · obtain ⟨d0, hd0, rfl⟩ := hpl h4 h5
        refine .add (k := k) hT hd0 ⟨hpos, h8⟩ ?_ (by rw [readBytes_length]; omega) ?_
        · rw [readBytes_length]
          have h6 := h3.dvd w (Nat.dvd_add (l.dvd w ha) (Nat.dvd_refl _))
          exact Nat.dvd_sub h6 (l.dvd w ha)
        · intro i
          have hlen : (tornData (headBytes (Header.ofData d0)) k).length = 8 := by rw [tornData_length, headBytes_length]
          have hY : ∀ i, i < 8 → mem' (f + i) = (tornData (headBytes (Header.ofData d0)) k).getD i 0xff#8 := by
            intro i hi
            rw [hX i hi, List.getD_eq_getElem?_getD, List.getD_eq_getElem?_getD, List.getElem?_eq_getElem (by omega)]
            rfl
          rcases Nat.lt_or_ge i (f' - f) with h6 | h6
          · rw [getD_readBytes _ _ _ _ h6]
            rcases Nat.lt_or_ge i 8 with h7 | h7
            · exact hY i h7
            · rw [hblank2 _ (by omega) (by omega), List.getD_eq_getElem?_getD, List.getElem?_eq_none (by omega)]; rfl
          · rw [List.getD_eq_getElem?_getD, List.getElem?_eq_none (by simpa using h6)]
            rcases Nat.lt_or_ge i 8 with h7 | h7
            · rw [← hY i h7, h2 hr _ (by omega) (by omega)]; rfl
            · rw [List.getD_eq_getElem?_getD, List.getElem?_eq_none (by omega)]
    · refine Or.inr ⟨hpos, hcomplete ht, fun h1 h2 => ?_⟩
      exact (gs' h1 h2).snoc (it := ⟨f, h, tornData d (k - g.hl)⟩) (by omega) .nil rfl

/-- The layout after the checksum of one of its items was (partly) cleared. -/
def clearIt (k : Nat) (it : It) : It := { it with hdr := { it.hdr with crc := clearedCrc it.hdr.crc k } }

theorem le32_ofLe32 (a b c d : Byte) : le32 (ofLe32 a b c d) = [a, b, c, d] := by
  have h : ∀ i, i < 8 → i < 32 ∧ 8 + i < 32 ∧ 16 + i < 32 ∧ 24 + i < 32 := by omega
  unfold le32
  simp only [List.cons.injEq, and_true]
  refine ⟨?_, ?_, ?_, ?_⟩ <;> apply BitVec.eq_of_getLsbD_eq <;> intro i hi <;> obtain ⟨h0, h1, h2, h3⟩ := h i hi
  · simp only [ofLe32, BitVec.getLsbD_setWidth, BitVec.getLsbD_append]
    simp [hi]
  · simp only [ofLe32, BitVec.getLsbD_setWidth, BitVec.getLsbD_ushiftRight, BitVec.getLsbD_append]
    simp [hi, show ¬ (8 + i < 8) by omega, show 8 + i - 8 = i by omega]
  · simp only [ofLe32, BitVec.getLsbD_setWidth, BitVec.getLsbD_ushiftRight, BitVec.getLsbD_append]
    simp [hi, show ¬ (16 + i < 8) by omega, show ¬ (16 + i - 8 < 8) by omega, show 16 + i - 8 - 8 = i by omega]
  · simp only [ofLe32, BitVec.getLsbD_setWidth, BitVec.getLsbD_ushiftRight, BitVec.getLsbD_append]
    simp [hi, show ¬ (24 + i < 8) by omega, show ¬ (24 + i - 8 < 8) by omega, show ¬ (24 + i - 8 - 8 < 8) by omega,
      show 24 + i - 8 - 8 - 8 = i by omega]

theorem clearedCrc_twice (c : BitVec 32) (j k : Nat) : clearedCrc (clearedCrc c j) k = clearedCrc c (max j k) := by
  rw [← ofLe32_le32 c]
  rw [clearedCrc_bytes, clearedCrc_bytes, clearedCrc_bytes]
  have h : ∀ (b : Byte) n, (if n < k then 0#8 else if n < j then 0#8 else b) = if n < max j k then 0#8 else b := by
    intro b n
    by_cases h1 : n < k
    · rw [if_pos h1, if_pos (by omega)]
    · rw [if_neg h1]
      by_cases h2 : n < j
      · rw [if_pos h2, if_pos (by omega)]
      · rw [if_neg h2, if_neg (by omega)]
  rw [h, h, h, h]

theorem Layout.clear {cf : Bool} {g : Geo} (w : g.WF) {mem : Nat → Byte} {e a f : Nat} {pre post : List It}
    {it : It} {p : Nat} (l : Layout cf g mem e a (pre ++ it :: post) f) {D : List Byte → Prop}
    (hc : cf = false → g.word < 8 → NoMix g.word D) (ha : g.word ∣ a) (k : Nat) (hpa : p ≤ a) (hpd : g.word ∣ p)
    (hpl : cf = false → g.word < 8 → ∃ d j, D d ∧ it.hdr = { Header.ofData d with crc := clearedCrc (adaptedCrc32 d) j })
    (gs : cf = false → g.word < 8 → Gaps (Scraps g.word D) g mem e p (pre ++ it :: post) f) :
    Layout cf g (programBytes mem it.addr ((Header.encode g { it.hdr with crc := 0#32 }).take k)) e a
      (pre ++ clearIt k it :: post) f := by
  have hel := encode_length w { it.hdr with crc := 0#32 }
  generalize hp : pre ++ it :: post = its at l gs
  induction l generalizing pre p with
  | done h => simp at hp
  | @gap a f its hcf h t ih =>
    have hwp := w.word_pos
    refine .gap hcf ?_ (ih (Nat.dvd_add ha (Nat.dvd_refl _)) (by omega) hpd hp gs)
    have hit : it ∈ its := by rw [← hp]; simp
    have := (t.mem_item w hit).1
    have hdv := t.mem_dvd w (Nat.dvd_add ha (Nat.dvd_refl _)) hit
    have hat := hdrAt_some_iff.1 (t.mem_item w hit).2.1
    rcases Nat.lt_or_ge it.addr (a + g.hl) with hlt | hge
    · obtain ⟨h6, h7⟩ := straddle w ha hdv (by omega) hlt
      rcases Nat.eq_zero_or_pos k with rfl | hk
      · rw [List.take_zero, programBytes_nil]; exact h
      · have hg : p ≤ it.addr ∧ Scraps g.word D (readBytes mem p (it.addr - p)) := by
          have hgs := gs hcf h6
          rw [← hp] at hgs
          cases pre with
          | nil => exact hgs.split
          | cons q pre =>
            exfalso
            have h8 := t.mem_item w (it := q) (by rw [← hp]; simp)
            rw [← hp] at t
            have h9 : ∀ {l a f}, Layout cf g mem e a (q :: (l ++ it :: post)) f → a ≤ q.addr → q.hdr.next g q.addr ≤ it.addr := by
              intro l a f hl
              generalize hq : q :: (l ++ it :: post) = its' at hl
              induction hl with
              | done => simp at hq
              | gap _ _ t' ih' =>
                intro h10
                exact ih' hq (t'.mem_item w (by rw [← hq]; simp)).1
              | item _ t' _ =>
                intro _
                simp only [List.cons.injEq] at hq
                obtain ⟨rfl, hq⟩ := hq
                exact (t'.mem_item w (it := it) (by rw [← hq]; simp)).1
            have h10 := h9 t h8.1
            unfold Header.next at h10
            omega
        have hd := decode_clear w (k := k) hat.2.1
        have hout : ∀ x, x < it.addr → programBytes mem it.addr ((Header.encode g { it.hdr with crc := 0#32 }).take k) x = mem x :=
          fun x hx => programBytes_outside (Or.inl hx)
        generalize programBytes mem it.addr ((Header.encode g { it.hdr with crc := 0#32 }).take k) = mem' at hd hout
        have hX : ∀ i, i < 8 → mem' (it.addr + i) = (headBytes { it.hdr with crc := clearedCrc it.hdr.crc k }).getD i 0#8 := by
          have hl8 := w.hl_ge
          rw [decode_some_iff (by simpa using hl8)] at hd
          obtain ⟨hd1, hd2⟩ := hd
          rw [hd2]
          simp only [getD_readBytes _ _ _ _ (show 0 < g.hl by omega), getD_readBytes _ _ _ _ (show 1 < g.hl by omega),
            getD_readBytes _ _ _ _ (show 2 < g.hl by omega), getD_readBytes _ _ _ _ (show 3 < g.hl by omega),
            getD_readBytes _ _ _ _ (show 4 < g.hl by omega), getD_readBytes _ _ _ _ (show 5 < g.hl by omega),
            getD_readBytes _ _ _ _ (show 6 < g.hl by omega), getD_readBytes _ _ _ _ (show 7 < g.hl by omega), Nat.add_zero]
            at hd1 ⊢
          intro i hi
          unfold headBytes
          rw [le32_ofLe32, le16_ofLe16, hd1, le16_ofLe16]
          rcases i with _ | _ | _ | _ | _ | _ | _ | _ | i <;> first | omega | rfl
        have h0 : mem' it.addr = 0#8 := by
          have := hX 0 (by decide)
          rw [Nat.add_zero] at this
          rw [this]
          exact clearedCrc_low it.hdr.crc hk
        refine hdrAt_fake w (Layout.error_lt h) (by omega : a ≤ it.addr) hlt (by rw [h0]; decide) ?_
        obtain ⟨d, j, hD, hh⟩ := hpl hcf h6
        refine window hX (fun x _ h8 => hout x h8) hpa (by omega) ?_
        rw [hh]
        simp only [clearedCrc_twice]
        refine (hc hcf h6 _ (a - p) d (max j k) hg.2 (Nat.dvd_sub ha hpd) ?_ ?_ hD).2
        · rw [readBytes_length]; omega
        · rw [readBytes_length]; omega
    · unfold hdrAt at h ⊢
      rw [readBytes_congr (mem' := mem)]
      · exact h
      · intro x h1 h2
        exact programBytes_outside (Or.inl (by omega))
  | @item a f its hd h t ih =>
    cases pre with
    | nil =>
      simp only [List.nil_append, List.cons.injEq] at hp
      obtain ⟨rfl, rfl⟩ := hp
      have h3 := hdrAt_some_iff.1 h
      have hn : Header.next g hd a = a + g.hl + g.roundUp hd.len.toNat := rfl
      have hd' : dataAt g (programBytes mem a ((Header.encode g { hd with crc := 0#32 }).take k)) a hd.len.toNat =
          dataAt g mem a hd.len.toNat := by
        apply readBytes_congr
        intro x h1 h2
        apply programBytes_outside
        rw [List.length_take]; simp only at hel; omega
      simp only [List.nil_append, clearIt]
      rw [← hd']
      refine .item (hd := { hd with crc := clearedCrc hd.crc k }) (hdrAt_some h3.1 (decode_clear w h3.2.1) h3.2.2) ?_
      apply t.congr w
      intro x h1 h2
      apply programBytes_outside
      rw [List.length_take]; simp only [Header.next] at h1; simp only at hel; omega
    | cons p pre =>
      simp only [List.cons_append, List.cons.injEq] at hp
      obtain ⟨rfl, hp⟩ := hp
      have hit : it ∈ its := by rw [← hp]; simp
      have h4 := (t.mem_item w hit).1
      have h3 := hdrAt_some_iff.1 h
      have hn : Header.next g hd a = a + g.hl + g.roundUp hd.len.toNat := rfl
      have hr := w.le_roundUp hd.len.toNat
      have hout : ∀ x, x < hd.next g a →
          programBytes mem it.addr ((Header.encode g { it.hdr with crc := 0#32 }).take k) x = mem x := by
        intro x hx; exact programBytes_outside (Or.inl (by omega))
      have hd' : dataAt g (programBytes mem it.addr ((Header.encode g { it.hdr with crc := 0#32 }).take k)) a
          hd.len.toNat = dataAt g mem a hd.len.toNat := by
        apply readBytes_congr
        intro x h1 h2; exact hout x (by omega)
      simp only [List.cons_append]
      rw [← hd']
      refine .item (hdrAt_some h3.1 ?_ h3.2.2) (ih (next_dvd w ha) (Nat.le_refl _) (next_dvd w ha) hp
        (fun h1 h2 => (gs h1 h2).2.2))
      rw [readBytes_congr (mem' := mem)]
      · exact h3.2.1
      · intro x h1 h2; exact hout x (by omega)

/-! ### Scanning -/

/-- The result of a scan that skips the items for which `skip` holds. -/
def scanResult (g : Geo) (skip : Header → Bool) (its : List It) (f : Nat) : Option Header × Nat × Nat :=
  match its.dropWhile (fun it => skip it.hdr) with
  | [] => (none, f, f)
  | it :: _ => (some it.hdr, it.addr, it.hdr.next g it.addr)

theorem traverse_run {cf : Bool} {g : Geo} (w : g.WF) {e a f : Nat} {its : List It} (s : St K)
    (l : Layout cf g s.fl.mem e a its f) (ha : g.word ∣ a) (h1 : g.start ≤ a) (h2 : e ≤ g.stop)
    (skip : Header → Bool) {rounds : Nat} (hr : e < a + rounds) (hr0 : 0 < rounds) :
    traverse g e skip rounds a s = (.ok (scanResult g skip its f), s) := by
  induction l generalizing rounds with
  | @done a h =>
    obtain ⟨r, rfl⟩ : ∃ r, rounds = r + 1 := ⟨rounds - 1, by omega⟩
    unfold traverse
    rw [bind_ok (attempt_run _ _), readHeader_run w s ha h1 (by omega), h]
    simp [scanResult]
  | @gap a f its hcf h t ih =>
    have hlt := Layout.error_lt h
    obtain ⟨r, rfl⟩ : ∃ r, rounds = r + 1 := ⟨rounds - 1, by omega⟩
    unfold traverse
    rw [bind_ok (attempt_run _ _), readHeader_run w s ha h1 (by omega), h]
    have := w.hl_ge
    have := w.word_pos
    exact ih (Nat.dvd_add ha (Nat.dvd_refl _)) (by omega) (by omega) (by omega)
  | @item a f its hd h t ih =>
    have h3 := hdrAt_some_iff.1 h
    have := w.hl_ge
    have hn := Layout.next_gt w hd a
    obtain ⟨r, rfl⟩ : ∃ r, rounds = r + 1 := ⟨rounds - 1, by omega⟩
    unfold traverse
    rw [bind_ok (attempt_run _ _), readHeader_run w s ha h1 (by omega), h]
    simp only
    by_cases hs : skip hd
    · rw [if_pos hs, ih (Layout.next_dvd w ha) (by omega) (by omega) (by omega)]
      simp [scanResult, hs]
    · rw [if_neg hs]
      simp [scanResult, hs]

end SeqStorage
