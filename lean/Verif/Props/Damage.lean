import Verif.Props.QueueCrash
import Verif.Props.Checksum
import Verif.Proofs.Damage
/-
Bit flips: in the page markers (C46), in the items of a queue (C47) and in their lengths (C48).
-/

namespace SeqStorage.Props
open M Spec

variable {K : Type} [DecidableEq K] {g : Geo}

/-- The number of bits in which two bytes differ. -/
def bitDiff (a b : Byte) : Nat := (List.range 8).countP fun i => a.getLsbD i != b.getLsbD i

/-- The bits among the `n` bytes at `a` that are not those of `b`. -/
def flipped (mem : Nat → Byte) (a n : Nat) (b : Byte) : Nat := ((List.range n).map fun i => bitDiff (mem (a + i)) b).sum

theorem countZeros_diff (b : Byte) : countZeros b = bitDiff b 0xff#8 := by
  revert b; decide +kernel

theorem countZeros_add (b : Byte) : countZeros b + bitDiff b 0#8 = 8 := by
  revert b; decide +kernel

theorem zeros_flipped (mem : Nat → Byte) (a n : Nat) :
    ((readBytes mem a n).map countZeros).sum = flipped mem a n 0xff#8 := by
  unfold readBytes flipped
  rw [List.map_map]
  congr 2
  funext i
  exact countZeros_diff _

theorem sum_add_map {α : Type} (f h : α → Nat) (c : Nat) : ∀ l : List α, (∀ x ∈ l, f x + h x = c) →
    (l.map f).sum + (l.map h).sum = c * l.length
  | [], _ => by simp
  | x :: l, H => by
    have := sum_add_map f h c l (fun y hy => H y (by simp [hy]))
    have := H x (by simp)
    simp only [List.map_cons, List.sum_cons, List.length_cons, Nat.mul_add, Nat.mul_one]
    omega

theorem zeros_add (mem : Nat → Byte) (a n : Nat) :
    ((readBytes mem a n).map countZeros).sum + flipped mem a n 0#8 = 8 * n := by
  unfold readBytes flipped
  rw [List.map_map]
  have := sum_add_map (fun i => countZeros (mem (a + i))) (fun i => bitDiff (mem (a + i)) 0#8) 8 (List.range n)
    (fun i _ => countZeros_add _)
  rw [List.length_range] at this
  exact this

/-- The marker was written or erased and few bits of it changed: four may remain of a written one,
three may fall in an erased one. -/
def Near (mem : Nat → Byte) (a n : Nat) (written : Bool) : Prop :=
  if written then flipped mem a n 0#8 + 4 ≤ 8 * n else flipped mem a n 0xff#8 ≤ 3

theorem marked_near {mem : Nat → Byte} {a n : Nat} {b : Bool} (h : Near mem a n b) : marked (readBytes mem a n) = b := by
  unfold Near at h
  unfold marked
  cases b with
  | true =>
    rw [if_pos rfl] at h
    have := zeros_add mem a n
    rw [decide_eq_true_eq]; omega
  | false =>
    rw [if_neg (by simp)] at h
    rw [zeros_flipped, decide_eq_false_iff_not]; omega

/-- C46. Whatever is in the flash: while no more than three bits of an erased marker and all but four bits of a
written one have changed, the state of the page is the one the markers stand for, and finding it out changes
nothing. -/
theorem page_state_survives_flips (w : g.WF) {s : St K} {i : Nat} (hi : i < g.pageCount) (first last : Bool)
    (h1 : Near s.fl.mem (g.pageAddr i) g.readSize first)
    (h2 : Near s.fl.mem (g.pageEnd i - g.readSize) g.readSize last) :
    getPageState g i s =
      (if first then (if last then .ok .closed else .ok .partialOpen)
       else (if last then .error .corrupted else .ok .open), s) := by
  have ho := page_order w i
  have hle := w.page_le hi
  unfold getPageState
  have hE : g.pageAddr i + (g.eraseSize - g.readSize) = g.pageEnd i - g.readSize := by omega
  have r1 : flashRead g (g.pageAddr i) g.readSize s = (.ok (readBytes s.fl.mem (g.pageAddr i) g.readSize), s) :=
    flashRead_run w s (w.pageAddr_word i) (Nat.dvd_refl _) (by omega) (by omega) (by omega)
  have r2 : flashRead g (g.pageEnd i - g.readSize) g.readSize s =
      (.ok (readBytes s.fl.mem (g.pageEnd i - g.readSize) g.readSize), s) := by
    simp only [flashRead, Flash.read]
    have e1 : (g.pageEnd i - g.readSize) % g.readSize = 0 :=
      Nat.mod_eq_zero_of_dvd (Nat.dvd_sub (Nat.dvd_trans w.read_dvd (w.pageEnd_word i)) (Nat.dvd_refl _))
    rw [if_neg (by rw [Nat.mod_self]; omega), if_neg (by omega)]
  rw [bind_ok r1, hE, bind_ok r2, lift_run, marked_near h1, marked_near h2]
  cases first <;> cases last <;> rfl

/-- Three flipped bits are few enough for every marker. -/
theorem near_three {mem : Nat → Byte} {a n : Nat} {b : Bool} (hn : 0 < n)
    (h : flipped mem a n (if b then 0#8 else 0xff#8) ≤ 3) : Near mem a n b := by
  unfold Near
  cases b with
  | true => simp only [if_true] at h ⊢; omega
  | false => simpa using h

/-- Two written markers, one with four bits that became one again and one with two. -/
example : getPageState geo2 0 { st2 with fl := { st2.fl with mem := fun x => if x = 0 then 0xf0#8 else if x = 31 then 0x21#8 else st2.fl.mem x } } =
    (.ok .closed, { st2 with fl := { st2.fl with mem := fun x => if x = 0 then 0xf0#8 else if x = 31 then 0x21#8 else st2.fl.mem x } }) :=
  page_state_survives_flips geo2_wf (by decide) true true
    (by unfold Near; rw [if_pos rfl]; decide +kernel) (by unfold Near; rw [if_pos rfl]; decide +kernel)

/-- An erased marker with three flipped bits; a fourth one would be too much. -/
example : getPageState geo2 1 { freshSt with fl := { freshSt.fl with mem := fun x => if x = 63 then 0x1f#8 else 0xff#8 } } =
    (.ok .open, { freshSt with fl := { freshSt.fl with mem := fun x => if x = 63 then 0x1f#8 else 0xff#8 } }) :=
  page_state_survives_flips geo2_wf (by decide) false false
    (by unfold Near; rw [if_neg (by decide)]; decide +kernel) (by unfold Near; rw [if_neg (by decide)]; decide +kernel)

example : (getPageState geo2 1 { freshSt with fl := { freshSt.fl with mem := fun x => if x = 63 then 0x0f#8 else 0xff#8 } }).1 =
    .error .corrupted := by decide +kernel

/-! ### Items -/

theorem ofLe32_inj {a b c d a' b' c' d' : Byte} (h : ofLe32 a b c d = ofLe32 a' b' c' d') : a = a' ∧ b = b' ∧ c = c' ∧ d = d' := by
  have hb : ∀ i, (ofLe32 a b c d).getLsbD i = (ofLe32 a' b' c' d').getLsbD i := fun i => by rw [h]
  simp only [ofLe32, BitVec.getLsbD_append] at hb
  refine ⟨?_, ?_, ?_, ?_⟩ <;> apply BitVec.eq_of_getLsbD_eq <;> intro i hi
  · simpa [hi] using hb i
  · have := hb (8 + i); simpa [hi, show ¬ 8 + i < 8 from by omega] using this
  · have := hb (16 + i)
    simpa [hi, show ¬ 16 + i < 8 from by omega, show ¬ 16 + i - 8 < 8 from by omega, show 16 + i - 8 - 8 = i from by omega] using this
  · have := hb (24 + i)
    simpa [hi, show ¬ 24 + i < 8 from by omega, show ¬ 24 + i - 8 < 8 from by omega, show ¬ 24 + i - 8 - 8 < 8 from by omega,
      show 24 + i - 8 - 8 - 8 = i from by omega] using this

/-- The flash with another byte at `x`. -/
def setByte (mem : Nat → Byte) (x : Nat) (v : Byte) : Nat → Byte := fun y => if y = x then v else mem y

theorem setByte_same {mem : Nat → Byte} {x : Nat} {v : Byte} : setByte mem x v x = v := if_pos rfl
theorem setByte_ne {mem : Nat → Byte} {x y : Nat} {v : Byte} (h : y ≠ x) : setByte mem x v y = mem y := if_neg h

theorem dataOf_set {W : Nat} {mem : Nat → Byte} {p : Nat × List Byte} {x : Nat} {v : Byte}
    (h : ¬ (p.1 + pad W 8 ≤ x ∧ x < p.1 + pad W 8 + p.2.length)) : dataOf W (setByte mem x v) p = dataOf W mem p := by
  unfold dataOf
  apply List.map_congr_left
  intro i hi
  rw [List.mem_range] at hi
  exact setByte_ne (by omega)

theorem word32_set {mem : Nat → Byte} {a x : Nat} {v : Byte} (h : ¬ (a ≤ x ∧ x < a + 4)) :
    word32 (setByte mem x v) a = word32 mem a := by
  unfold word32
  rw [setByte_ne (by omega), setByte_ne (by omega), setByte_ne (by omega), setByte_ne (by omega)]

/-- A changed byte of the checksum field changes the checksum. -/
theorem word32_changed {mem : Nat → Byte} {a x : Nat} {v : Byte} (h : a ≤ x ∧ x < a + 4) (hv : v ≠ mem x) :
    word32 (setByte mem x v) a ≠ word32 mem a := by
  intro he
  unfold word32 at he
  obtain ⟨h0, h1, h2, h3⟩ := ofLe32_inj he
  have : x = a ∨ x = a + 1 ∨ x = a + 2 ∨ x = a + 3 := by omega
  rcases this with rfl | rfl | rfl | rfl
  · rw [setByte_same] at h0; exact hv h0
  · rw [setByte_same] at h1; exact hv h1
  · rw [setByte_same] at h2; exact hv h2
  · rw [setByte_same] at h3; exact hv h3

/-- A changed byte of the data, at its place in the list. -/
theorem dataOf_changed {W : Nat} {mem : Nat → Byte} {p : Nat × List Byte} {x : Nat} {v : Byte}
    (h : p.1 + pad W 8 ≤ x ∧ x < p.1 + pad W 8 + p.2.length) :
    ∃ pre post, dataOf W mem p = pre ++ mem x :: post ∧ dataOf W (setByte mem x v) p = pre ++ v :: post ∧ post.length < p.2.length := by
  obtain ⟨k, hk⟩ : ∃ k, x = p.1 + pad W 8 + k := ⟨x - (p.1 + pad W 8), by omega⟩
  subst hk
  have hk : k < p.2.length := by omega
  have hr : List.range p.2.length = List.range k ++ k :: (List.range (p.2.length - k - 1)).map (k + 1 + ·) := by
    have : p.2.length = k + (1 + (p.2.length - k - 1)) := by omega
    conv => lhs; rw [this, List.range_add, List.range_add]
    simp [List.range_one, List.map_map, Function.comp_def, Nat.add_assoc]
  unfold dataOf
  rw [hr]
  refine ⟨(List.range k).map fun i => mem (p.1 + pad W 8 + i),
    ((List.range (p.2.length - k - 1)).map (k + 1 + ·)).map fun i => mem (p.1 + pad W 8 + i), ?_, ?_, ?_⟩
  · rw [List.map_append, List.map_cons]
  · rw [List.map_append, List.map_cons]
    congr 1
    · apply List.map_congr_left
      intro i hi
      rw [List.mem_range] at hi
      exact setByte_ne (by omega)
    · congr 1
      · exact setByte_same
      · apply List.map_congr_left
        intro i hi
        obtain ⟨j, _, rfl⟩ := List.mem_map.1 hi
        exact setByte_ne (by omega)
  · simp; omega

/-- The items are in the flash and do not overlap. -/
structure InPlace (W : Nat) (mem : Nat → Byte) (l : List (Nat × List Byte)) : Prop where
  there : ∀ p ∈ l, InFlash W mem p ∧ p.2.length ≤ 65535
  apart : ∀ p ∈ l, ∀ p' ∈ l, p ≠ p' → p.1 + itemSize W p.2 ≤ p'.1 ∨ p'.1 + itemSize W p'.2 ≤ p.1

theorem le_pad {W : Nat} (h : 0 < W) (n : Nat) : n ≤ pad W n := by
  unfold pad
  have h1 := Nat.div_add_mod (n + W - 1) W
  have h2 := Nat.mod_lt (n + W - 1) h
  rw [Nat.mul_comm] at h1
  omega

/-- C47. Any change of one byte of an item, except in the length of the item, is noticed: the item is gone
or unchanged, and the other items are unchanged. -/
theorem one_byte_is_damage {W : Nat} {mem : Nat → Byte} {l : List (Nat × List Byte)} (hW : 0 < W) (h : InPlace W mem l)
    {p : Nat × List Byte} (hp : p ∈ l) {x : Nat} (hx : Inside W p x) (v : Byte) :
    Damage W mem (setByte mem x v) l ∧
    (survivors W (setByte mem x v) l = l ∨ survivors W (setByte mem x v) l = l.filter fun p' => decide (p' ≠ p)) := by
  obtain ⟨hin, hlen⟩ := h.there p hp
  obtain ⟨hx1, hx2, hx3⟩ := hx
  have h8 := le_pad hW 8
  have hd := le_pad hW p.2.length
  have hsz : itemSize W p.2 = pad W 8 + pad W p.2.length := rfl
  have hother : ∀ p' ∈ l, p' ≠ p → InFlash W (setByte mem x v) p' := by
    intro p' hp' hne
    have ha := h.apart p' hp' p hp hne
    have hd' := le_pad hW p'.2.length
    have hsz' : itemSize W p'.2 = pad W 8 + pad W p'.2.length := rfl
    obtain ⟨h1, h2⟩ := (h.there p' hp').1
    exact ⟨by rw [word32_set (by omega)]; exact h1, by rw [dataOf_set (by omega)]; exact h2⟩
  have hself : InFlash W (setByte mem x v) p ∨
      word32 (setByte mem x v) p.1 ≠ adaptedCrc32 (dataOf W (setByte mem x v) p) := by
    obtain ⟨h1, h2⟩ := hin
    by_cases hv : v = mem x
    · left
      have : setByte mem x v = mem := by
        funext y
        by_cases hy : y = x
        · subst hy; rw [setByte_same, hv]
        · exact setByte_ne hy
      rw [this]; exact ⟨h1, h2⟩
    · by_cases hc : x < p.1 + 4
      · right
        rw [dataOf_set (by omega), h2, ← h1]
        exact word32_changed (by omega) hv
      · by_cases hdat : p.1 + pad W 8 ≤ x ∧ x < p.1 + pad W 8 + p.2.length
        · right
          obtain ⟨pre, post, e1, e2, e3⟩ := dataOf_changed (W := W) (mem := mem) (v := v) hdat
          rw [word32_set (by omega), h1, e2, ← h2, e1]
          exact changed_byte_detected pre post _ _ (fun he => hv he.symm) (by omega)
        · left
          exact ⟨by rw [word32_set (by omega)]; exact h1, by rw [dataOf_set hdat]; exact h2⟩
  refine ⟨⟨fun y hy => ?_, fun p' hp' => ?_⟩, ?_⟩
  · have : y = x := by
      by_cases hyx : y = x
      · exact hyx
      · exact absurd (setByte_ne hyx) hy
    rw [this]; exact ⟨p, hp, hx1, hx2, hx3⟩
  · by_cases hpp : p' = p
    · rw [hpp]; exact hself
    · exact Or.inl (hother p' hp' hpp)
  · by_cases hpi : InFlash W (setByte mem x v) p
    · left
      unfold survivors
      rw [List.filter_eq_self]
      intro p' hp'
      rw [decide_eq_true_eq]
      by_cases hpp : p' = p
      · rw [hpp]; exact hpi
      · exact hother p' hp' hpp
    · right
      unfold survivors
      apply List.filter_congr
      intro p' hp'
      rw [decide_eq_decide]
      constructor
      · intro h1 h2; rw [h2] at h1; exact hpi h1
      · exact hother p' hp'

/-! ### Queues with damaged items -/

/-- The queue holds the items `l`, with their addresses. Whatever call is made next answers as a list with these
items, and whatever damage comes next leaves the items that are still the same. And so on for `n` further
calls and damages, in any order. -/
def Endures (g : Geo) (ok : QCall (Cache K) → Option Nat → Prop)
    (step : List (List Byte) → QCall (Cache K) → Except Err QAnswer → List (List Byte) → Prop) :
    Nat → St K → List (Nat × List Byte) → Prop
  | 0, _, _ => True
  | n + 1, s, l =>
    InPlace g.word s.fl.mem l ∧ (∀ p ∈ l, g.start ≤ p.1 ∧ p.1 + itemSize g.word p.2 ≤ g.stop) ∧
    (∀ c fuel, ok c fuel → ∃ l', step (l.map (·.2)) c (qcall g c (powerFor fuel s)).1 (l'.map (·.2)) ∧
      Endures g ok step n (qcall g c (powerFor fuel s)).2 l') ∧
    (∀ mem', Damage g.word s.fl.mem mem' l →
      Endures g ok step n { s with fl := { s.fl with mem := mem' } } (survivors g.word mem' l))

/-- The modes of the invariant with damaged items. -/
abbrev hurt : Mode := ⟨true, false, none, fun _ => True, true⟩
abbrev hurtTorn : Mode := ⟨false, false, none, anyData, true⟩

theorem endures {md : Mode} (w : g.WF) (hnp : md.np = false) (hW : md.cf = false → 8 ≤ g.word) (hdm : md.dmg = true)
    {ok : QCall (Cache K) → Option Nat → Prop}
    {step : List (List Byte) → QCall (Cache K) → Except Err QAnswer → List (List Byte) → Prop}
    (hc : ∀ s q c fuel, ok c fuel → Holds md g s q → ∃ q', step q c (qcall g c (powerFor fuel s)).1 q' ∧
      Holds md g (qcall g c (powerFor fuel s)).2 q') :
    ∀ (n : Nat) (s : St K) (l : List (Nat × List Byte)), HoldsAt md g s l → Endures g ok step n s l := by
  intro n
  induction n with
  | zero => intro s l _; trivial
  | succ n ih =>
    intro s l h
    obtain ⟨h1, h2⟩ := h.placed w
    refine ⟨⟨fun p hp => ⟨(h1 p hp).1, (h1 p hp).2.1⟩, h2⟩, fun p hp => (h1 p hp).2.2, ?_, ?_⟩
    · intro c fuel hok
      obtain ⟨q', h3, h4⟩ := hc s _ c fuel hok h.holds
      obtain ⟨l', h5, rfl⟩ := h4.at
      exact ⟨l', h3, ih _ _ h5⟩
    · intro mem' hd
      exact ih _ _ (h.damage w hW hnp hdm hd)

/-- C47. Bytes of items may change at any time, any number of them at once: every later answer is that of a list in
which exactly the changed items are missing. No other item is lost and nothing else is shown. -/
theorem damaged_items_are_skipped (w : g.WF) {s : St K} (h : Start g s) (n : Nat) :
    Endures g (fun c fuel => Documented g c ∧ fuel = none) (damagedStep g.word g.eraseSize g.pageCount) n s [] := by
  refine endures (md := hurt) w rfl (by simp) rfl ?_ n s [] ⟨_, _, h.qi w, by rfl⟩
  rintro s q c fuel ⟨hd, rfl⟩ hq
  have hf : powerFor none s = s := by
    obtain ⟨σ, P, hq, _⟩ := hq
    have hf := hq.fs.fuel rfl
    obtain ⟨⟨mem, fuel, a, b, c, d, k⟩, e, f, i, j⟩ := s
    simp only at hf
    subst hf
    rfl
  rw [hf]
  obtain ⟨q', h1, h2, h3⟩ := qcall_any w (md := hurt) rfl ⟨by simp, by simp⟩ hq c hd (by simp)
  refine ⟨q', ?_, h3⟩
  rcases h1 with h1 | ⟨rfl, h4, h5, h6⟩
  · exact Or.inl ⟨h1, h2 rfl⟩
  · exact Or.inr ⟨h4, h5, h6⟩

/-- C47, when power may be lost as well. Missing: words of less than eight bytes and the cases in which C04 is false. -/
theorem damaged_items_are_skipped_torn_partial (w : g.WF) (hW : 8 ≤ g.word) (hn : 2 ≤ g.pageCount) {s : St K}
    (hE : Erased g s.fl) (hc : FreshCache g.pageCount s.cache) (n : Nat) :
    Endures g (fun c _ => Documented g c ∧ TearProof anyData c) (crashStep g.word g.eraseSize g.pageCount) n s [] := by
  have hmd : hurtTorn.OK g := ⟨fun _ _ => noMix_wide hW _, fun _ => hn⟩
  refine endures (md := hurtTorn) w rfl (fun _ => hW) rfl ?_ n s [] ⟨_, _, QI.erased w hE (by simp) hc, by rfl⟩
  rintro s q c fuel ⟨hd, ht⟩ ⟨σ, P, hq, rfl⟩
  obtain ⟨q', h1, _, h3⟩ := qcall_any w (md := hurtTorn) rfl hmd ⟨σ, P, hq.power rfl fuel, rfl⟩ c hd (fun _ => ht)
  refine ⟨q', ?_, h3⟩
  rcases h1 with h1 | ⟨rfl, h4, _⟩
  · exact h1
  · omega

/-! ### Concrete cases -/

/-- The items of `st2` and where they are. -/
def placed2 : List (Nat × List Byte) := [(4, [1#8, 2#8, 3#8]), (16, [4#8]), (36, [5#8, 6#8, 7#8, 8#8, 9#8])]

theorem placed2_ok : InPlace 4 st2.fl.mem placed2 := by
  constructor
  · intro p hp
    simp only [placed2, List.mem_cons, List.not_mem_nil, or_false] at hp
    rcases hp with rfl | rfl | rfl <;> decide +kernel
  · decide +kernel

/-- A flipped bit in the second byte of the first item. -/
example : Damage 4 st2.fl.mem (setByte st2.fl.mem 13 0x42#8) placed2 ∧
    (survivors 4 (setByte st2.fl.mem 13 0x42#8) placed2 = placed2 ∨
     survivors 4 (setByte st2.fl.mem 13 0x42#8) placed2 = placed2.filter fun p' => decide (p' ≠ (4, [1#8, 2#8, 3#8]))) :=
  one_byte_is_damage (p := (4, [1#8, 2#8, 3#8])) (by decide) placed2_ok (by decide) ⟨by decide, by decide +kernel, by decide⟩ _

example : survivors 4 (setByte st2.fl.mem 13 0x42#8) placed2 = [(16, [4#8]), (36, [5#8, 6#8, 7#8, 8#8, 9#8])] := by decide +kernel

/-- The state with another byte at `x`. -/
def stSet (s : St K) (x : Nat) (v : Byte) : St K := { s with fl := { s.fl with mem := setByte s.fl.mem x v } }

/-- The damaged item takes up space until the next page is reached. -/
example : (qrun geo2 [.pop buf32, .push [7#8] false, .pop buf32, .push [7#8] false, .pop buf32, .pop buf32] (stSet st2 13 0x42#8)).1 =
    [.ok (.item (some [4#8])), .error .fullStorage, .ok (.item (some [5#8, 6#8, 7#8, 8#8, 9#8])), .ok .done,
      .ok (.item (some [7#8])), .ok (.item none)] := by decide +kernel

/-- All calls and damages from an erased flash, among them the ones above. -/
example : Endures geo2 (fun c fuel => Documented geo2 c ∧ fuel = none) (damagedStep 4 32 2) 100 freshSt [] :=
  damaged_items_are_skipped geo2_wf (fresh_start geo2) 100

example : Endures geo8 (fun c _ => Documented geo8 c ∧ TearProof anyData c) (crashStep 8 64 2) 100 freshSt [] :=
  damaged_items_are_skipped_torn_partial geo8_wf (by decide) (by decide) (fresh_start geo8).flash (noCache_fresh _) 100

/-! ### Damaged lengths

A header with a wrong length is not skipped as a whole: the scan goes on word by word through the data of
the item (/repo/src/item.rs 495-520). -/

/-- An item of eight bytes `ff` and a second item. -/
def whites : St Unit := (qrun geo42 [.push (List.replicate 8 0xff#8) false, .push [3#8] false] freshSt).2

/-- C48. One flipped bit in the length of the first item: the bytes `ff` of its data end the page, so the second item
is gone as well, and an item that is pushed now is written over it and cannot be read back. -/
theorem damaged_length_loses_others :
    (qrun geo42 [.pop buf32, .pop buf32] whites).1 = [.ok (.item (some (List.replicate 8 0xff#8))), .ok (.item (some [3#8]))] ∧
    bitDiff (whites.fl.mem 8) 9#8 = 1 ∧
    (qrun geo42 [.pop buf32, .push [9#8] false, .pop buf32] (stSet whites 8 9#8)).1 =
      [.ok (.item none), .ok .done, .ok (.item none)] := by
  refine ⟨by decide +kernel, by decide +kernel, by decide +kernel⟩

/-- An item whose data are the bytes of an item, and a second item. -/
def russian : St Unit :=
  (qrun geo42 [.push [216#8, 245#8, 9#8, 163#8, 1#8, 0#8, 91#8, 240#8, 3#8, 0#8, 0#8, 0#8] false, .push [7#8] false] freshSt).2

/-- C48. One flipped bit in a length makes the queue return an item that was never pushed. -/
theorem damaged_length_forges_item :
    bitDiff (russian.fl.mem 8) 13#8 = 1 ∧
    (qrun geo42 [.pop buf32, .pop buf32] russian).1 =
      [.ok (.item (some [216#8, 245#8, 9#8, 163#8, 1#8, 0#8, 91#8, 240#8, 3#8, 0#8, 0#8, 0#8])), .ok (.item (some [7#8]))] ∧
    (qrun geo42 [.pop buf32, .pop buf32] (stSet russian 8 13#8)).1 = [.ok (.item (some [3#8])), .ok (.item (some [7#8]))] := by
  refine ⟨by decide +kernel, by decide +kernel, by decide +kernel⟩

end SeqStorage.Props
