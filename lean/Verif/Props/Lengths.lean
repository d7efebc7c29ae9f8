import Verif.Props.Damage
import Verif.Props.LengthChecksum
import Verif.Proofs.Shred
/-
Damaged lengths of items that cost nothing else (C48).
-/

namespace SeqStorage.Props
open M Spec

variable {K : Type} [DecidableEq K] {g : Geo}

/-- As `Endures`, with damage to the lengths of items as well. -/
def Withstands (g : Geo) (ok : QCall (Cache K) → Option Nat → Prop)
    (step : List (List Byte) → QCall (Cache K) → Except Err QAnswer → List (List Byte) → Prop) :
    Nat → St K → List (Nat × List Byte) → Prop
  | 0, _, _ => True
  | n + 1, s, l =>
    InPlace g.word s.fl.mem l ∧ (∀ p ∈ l, LenOk s.fl.mem p ∧ g.start ≤ p.1 ∧ p.1 + itemSize g.word p.2 ≤ g.stop) ∧
    (∀ c fuel, ok c fuel → ∃ l', step (l.map (·.2)) c (qcall g c (powerFor fuel s)).1 (l'.map (·.2)) ∧
      Withstands g ok step n (qcall g c (powerFor fuel s)).2 l') ∧
    (∀ mem', Wreck g.word s.fl.mem mem' l →
      Withstands g ok step n { s with fl := { s.fl with mem := mem' } } (intact g.word mem' l))

theorem withstands {md : Mode} (w : g.WF) (hcf : md.cf = false) (hnp : md.np = false) (hW : 8 ≤ g.word) (hdm : md.dmg = true)
    {ok : QCall (Cache K) → Option Nat → Prop}
    {step : List (List Byte) → QCall (Cache K) → Except Err QAnswer → List (List Byte) → Prop}
    (hc : ∀ s q c fuel, ok c fuel → Holds md g s q → ∃ q', step q c (qcall g c (powerFor fuel s)).1 q' ∧
      Holds md g (qcall g c (powerFor fuel s)).2 q') :
    ∀ (n : Nat) (s : St K) (l : List (Nat × List Byte)), HoldsAt md g s l → Withstands g ok step n s l := by
  intro n
  induction n with
  | zero => intro s l _; trivial
  | succ n ih =>
    intro s l h
    obtain ⟨h1, h2⟩ := h.placed w
    have h3 := h.lenOk w
    refine ⟨⟨fun p hp => ⟨(h1 p hp).1, (h1 p hp).2.1⟩, h2⟩, fun p hp => ⟨h3 p hp, (h1 p hp).2.2⟩, ?_, ?_⟩
    · intro c fuel hok
      obtain ⟨q', h3, h4⟩ := hc s _ c fuel hok h.holds
      obtain ⟨l', h5, rfl⟩ := h4.at
      exact ⟨l', h3, ih _ _ h5⟩
    · intro mem' hd
      exact ih _ _ (h.wreck w hcf hW hnp hdm hd)

/-- C48, as far as it goes. Any bytes of items may change at any time, the lengths among them, and power may be lost at any
time: every later answer is that of a list in which exactly the changed items are missing, as long as no word of an
item with a changed length reads as a header or as blank. Missing: the other changes, of which the claim is false
(`damaged_length_loses_others`, `damaged_length_forges_item`), words of less than eight bytes, and the cases in which
C04 is false. -/
theorem damaged_length_costs_one_item_partial (w : g.WF) (hW : 8 ≤ g.word) (hn : 2 ≤ g.pageCount) {s : St K}
    (hE : Erased g s.fl) (hc : FreshCache g.pageCount s.cache) (n : Nat) :
    Withstands g (fun c _ => Documented g c ∧ TearProof anyData c) (crashStep g.word g.eraseSize g.pageCount) n s [] := by
  have hmd : hurtTorn.OK g := ⟨fun _ _ => noMix_wide hW _, fun _ => hn⟩
  refine withstands (md := hurtTorn) w rfl rfl hW rfl ?_ n s [] ⟨_, _, QI.erased w hE (by simp) hc, by rfl⟩
  rintro s q c fuel ⟨hd, ht⟩ ⟨σ, P, hq, rfl⟩
  obtain ⟨q', h1, _, h3⟩ := qcall_any w (md := hurtTorn) rfl hmd ⟨σ, P, hq.power rfl fuel, rfl⟩ c hd (fun _ => ht)
  refine ⟨q', ?_, h3⟩
  rcases h1 with h1 | ⟨rfl, h4, _⟩
  · exact h1
  · omega

/-! ### One or two flipped bits -/

/-- The length and its checksum in the header at `a`. -/
def lengthField (mem : Nat → Byte) (a : Nat) : List Byte := (List.range 8).map fun i => mem (a + i)

/-- C48. One or two flipped bits in the length of an item or in its checksum, where no word of its data reads as a header
or as blank: exactly this item is lost. -/
theorem two_length_bits_cost_one_item {W : Nat} (hW : 8 ≤ W) {mem mem' : Nat → Byte} {l : List (Nat × List Byte)}
    (h : InPlace W mem l) (hlen : ∀ p ∈ l, LenOk mem p) {p : Nat × List Byte} (hp : p ∈ l)
    (hx : ∀ x, mem' x ≠ mem x → p.1 + 4 ≤ x ∧ x < p.1 + 8)
    (h1 : 1 ≤ lenFlips (lengthField mem' p.1) (Header.ofData p.2)) (h2 : lenFlips (lengthField mem' p.1) (Header.ofData p.2) ≤ 2)
    (hd : ∀ k, 1 ≤ k → k * W < itemSize W p.2 → Unreadable W mem (p.1 + k * W)) :
    Wreck W mem mem' l ∧ intact W mem' l = l.filter fun p' => decide (p' ≠ p) := by
  have hun : ∀ x, ¬ (p.1 + 4 ≤ x ∧ x < p.1 + 8) → mem' x = mem x := fun x hn => by
    by_cases he : mem' x = mem x
    · exact he
    · exact absurd (hx x he) hn
  have hW0 : 0 < W := by omega
  have hl8 := le_pad hW0 8
  have hpad : pad W 8 = W := by
    unfold pad
    have : (8 + W - 1) / W = 1 := by
      rw [Nat.div_eq_iff hW0]; omega
    rw [this, Nat.one_mul]
  have hff : mem p.1 ≠ 0xff#8 := by
    have h3 := (h.there p hp).1.1
    intro he
    have h4 := (stored_checksum_low_byte p.2).1
    rw [← h3] at h4
    apply h4
    unfold word32
    rw [he]
    apply BitVec.eq_of_getLsbD_eq
    intro i hi
    simp only [ofLe32, BitVec.getLsbD_setWidth, BitVec.getLsbD_append, hi, decide_true, Bool.true_and, if_true]
  have hlf : ∀ i, i < 8 → (lengthField mem' p.1).getD i 0#8 = mem' (p.1 + i) := by
    intro i hi
    unfold lengthField
    rw [List.getD_eq_getElem?_getD, List.getElem?_map, List.getElem?_range hi]
    rfl
  have hdec := flipped_length_noticed_partial (bs := lengthField mem' p.1) (h := Header.ofData p.2) (by simp [lengthField])
    (by rw [hlf 0 (by omega)]; rw [hun _ (by omega)]; exact hff) h1 (Or.inl h2)
  have hcrc : crc16 [mem' (p.1 + 4), mem' (p.1 + 5)] ≠ ofLe16 (mem' (p.1 + 6)) (mem' (p.1 + 7)) := by
    intro he
    rw [← hlf 4 (by omega), ← hlf 5 (by omega), ← hlf 6 (by omega), ← hlf 7 (by omega)] at he
    have := (decode_some_iff (bs := lengthField mem' p.1) (by simp [lengthField]) ⟨_, _⟩).2 ⟨he, rfl⟩
    rw [this] at hdec
    simp at hdec
  have hbad : ¬ LenOk mem' p := fun h => hcrc h.2
  have hother : ∀ p' ∈ l, p' ≠ p → LenOk mem' p' ∧ InFlash W mem' p' := by
    intro p' hp' hne
    have ha := h.apart p' hp' p hp hne
    have hd' := le_pad hW0 p'.2.length
    have hsz' : itemSize W p'.2 = pad W 8 + pad W p'.2.length := rfl
    have hsz : itemSize W p.2 = pad W 8 + pad W p.2.length := rfl
    obtain ⟨h5, h6⟩ := (h.there p' hp').1
    obtain ⟨h7, h8⟩ := hlen p' hp'
    refine ⟨⟨?_, ?_⟩, ?_, ?_⟩
    · rw [hun _ (by omega), hun _ (by omega)]; exact h7
    · rw [hun _ (by omega), hun _ (by omega), hun _ (by omega), hun _ (by omega)]; exact h8
    · unfold word32
      rw [hun _ (by omega), hun _ (by omega), hun _ (by omega), hun _ (by omega)]; exact h5
    · rw [← h6]
      unfold dataOf
      apply List.map_congr_left
      intro i hi
      rw [List.mem_range] at hi
      exact hun _ (by omega)
  refine ⟨⟨fun x hne => ⟨p, hp, ?_⟩, fun p' hp' hok => ?_, fun p' hp' hno k hk => ?_⟩, ?_⟩
  · have := hx x hne
    have hsz : itemSize W p.2 = pad W 8 + pad W p.2.length := rfl
    omega
  · by_cases he : p' = p
    · subst he; exact absurd hok hbad
    · exact Or.inl (hother p' hp' he).2
  · by_cases he : p' = p
    · subst he
      rcases Nat.eq_zero_or_pos k with rfl | hk1
      · rw [Nat.zero_mul, Nat.add_zero]
        exact ⟨hcrc, 0, hW0, by rw [Nat.add_zero, hun _ (by omega)]; exact hff⟩
      · obtain ⟨h9, i, hi, h10⟩ := hd k hk1 hk
        have : W ≤ k * W := Nat.le_mul_of_pos_left W hk1
        refine ⟨?_, i, hi, ?_⟩
        · rw [hun _ (by omega), hun _ (by omega), hun _ (by omega), hun _ (by omega)]; exact h9
        · rw [hun _ (by omega)]; exact h10
    · exact absurd (hother p' hp' he).1 hno
  · unfold intact
    apply List.filter_congr
    intro p' hp'
    rw [decide_eq_decide]
    constructor
    · intro h3 h4; subst h4; exact hbad h3.1
    · exact hother p' hp'

/-! ### Concrete cases -/

/-- Two items in eight byte words. -/
def twoWide : St Unit := (qrun geo8 [.push [1#8, 2#8, 3#8] false, .push [4#8] false] freshSt).2

def placedWide : List (Nat × List Byte) := [(8, [1#8, 2#8, 3#8]), (24, [4#8])]

theorem placedWide_ok : InPlace 8 twoWide.fl.mem placedWide := by
  constructor
  · intro p hp
    simp only [placedWide, List.mem_cons, List.not_mem_nil, or_false] at hp
    rcases hp with rfl | rfl <;> decide +kernel
  · decide +kernel

theorem placedWide_len : ∀ p ∈ placedWide, LenOk twoWide.fl.mem p := by
  intro p hp
  simp only [placedWide, List.mem_cons, List.not_mem_nil, or_false] at hp
  rcases hp with rfl | rfl <;> decide +kernel

/-- A flipped bit in the length of the first item: only the second one is left. -/
example : Wreck 8 twoWide.fl.mem (setByte twoWide.fl.mem 12 7#8) placedWide ∧
    intact 8 (setByte twoWide.fl.mem 12 7#8) placedWide = placedWide.filter fun p' => decide (p' ≠ (8, [1#8, 2#8, 3#8])) :=
  two_length_bits_cost_one_item (p := (8, [1#8, 2#8, 3#8])) (by decide) placedWide_ok placedWide_len (by decide)
    (fun x hx => by
      by_cases he : x = 12
      · subst he; exact ⟨by decide, by decide⟩
      · exact absurd (setByte_ne he) hx)
    (by decide +kernel) (by decide +kernel)
    (fun k h1 h2 => by
      have h3 : itemSize 8 (8, [1#8, 2#8, 3#8]).2 = 16 := by decide +kernel
      have : k = 1 := by omega
      subst this
      exact ⟨by decide +kernel, 0, by decide +kernel⟩)

example : (qrun geo8 [.pop buf32, .push [5#8] false, .pop buf32, .pop buf32] (stSet twoWide 12 7#8)).1 =
    [.ok (.item (some [4#8])), .ok .done, .ok (.item (some [5#8])), .ok (.item none)] := by decide +kernel

/-- All calls, losses of power and damages from an erased flash. -/
example : Withstands geo8 (fun c _ => Documented geo8 c ∧ TearProof anyData c) (crashStep 8 64 2) 100 freshSt [] :=
  damaged_length_costs_one_item_partial geo8_wf (by decide) (by decide) (fresh_start geo8).flash (noCache_fresh _) 100

end SeqStorage.Props
