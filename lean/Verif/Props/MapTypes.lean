import Verif.Props.Map
import Verif.Props.MapSafe
import Verif.Props.Codec
/-
A map of any of the built-in types: C54.
-/

namespace SeqStorage.Props
open SeqStorage Spec M Codec

/-- The bytes of the built-in keys; `none` if the key is refused. -/
inductive BuiltInKey : {K : Type} → KeyCodec K → (K → Option (List Byte)) → Prop
  | num (n : Nat) : BuiltInKey (numKey n) (fun v => some (leBytes n v))
  | array (n : Nat) : BuiltInKey (arrayKey n) (fun v => some v.1)
  | unit : BuiltInKey unitKey (fun _ => some [])
  | vec (cap : Option Nat) :
    BuiltInKey (vecKey cap) (fun v => if v.1.length ≤ 65535 then some (le16 (BitVec.ofNat 16 v.1.length) ++ v.1) else none)
  | str (small : SerErr) (cap : Option Nat) :
    BuiltInKey (strKey small cap)
      (fun v => if (utf8 v.1).length ≤ 65535 then some (le16 (BitVec.ofNat 16 (utf8 v.1).length) ++ utf8 v.1) else none)

/-- The bytes of the built-in values. -/
inductive BuiltInVal : {V : Type} → ValCodec V → (V → List Byte) → Prop
  | num (n : Nat) : BuiltInVal (numVal n) (leBytes n)
  | numArray (n count : Nat) : BuiltInVal (numArrayVal n count) (fun v => v.1.flatMap (leBytes n))
  | bool : BuiltInVal boolVal (fun v => [if v then 1#8 else 0#8])
  | option {V : Type} {vc : ValCodec V} {enc : V → List Byte} (h : BuiltInVal vc enc) :
    BuiltInVal (optionVal vc) (fun v => v.elim [0#8] (fun x => 1#8 :: enc x))
  | bytes (cap : Option Nat) : BuiltInVal (bytesVal cap) (fun v => v.1)
  | str (cap : Option Nat) : BuiltInVal (strVal cap) (fun v => utf8 v.1)

variable {K V : Type} {kc : KeyCodec K} {vc : ValCodec V} {ke : K → Option (List Byte)} {ve : V → List Byte}

/-- The bytes that a round trip goes through are those that a large buffer gets. -/
theorem KeyRoundTrip.bytes {valid : K → Prop} (h : KeyRoundTrip kc valid) {k : K} (hv : valid k) {bs : List Byte} {n : Nat}
    (hs : kc.ser k n = .ok bs) :
    (∀ n, (bs.length ≤ n → kc.ser k n = .ok bs) ∧ (n < bs.length → ∃ e, kc.ser k n = .error e)) ∧
    (∀ rest, kc.de (bs ++ rest) = .ok (k, bs.length) ∧ kc.getLen (bs ++ rest) = .ok bs.length) := by
  obtain ⟨bs', h1, h2⟩ := h k hv
  rcases Nat.lt_or_ge n bs'.length with hl | hl
  · obtain ⟨e, he⟩ := (h1 n).2 hl
    rw [he] at hs; cases hs
  · rw [(h1 n).1 hl] at hs
    cases hs
    exact ⟨h1, h2⟩

theorem ValRoundTrip.bytes (h : ValRoundTrip vc) {v : V} {bs : List Byte} {n : Nat} (hs : vc.ser v n = .ok bs) :
    (∀ n, (bs.length ≤ n → vc.ser v n = .ok bs) ∧ (n < bs.length → ∃ e, vc.ser v n = .error e)) ∧ vc.de bs = .ok (v, bs.length) := by
  obtain ⟨bs', h1, h2⟩ := h v
  rcases Nat.lt_or_ge n bs'.length with hl | hl
  · obtain ⟨e, he⟩ := (h1 n).2 hl
    rw [he] at hs; cases hs
  · rw [(h1 n).1 hl] at hs
    cases hs
    exact ⟨h1, h2⟩

theorem lenPrefixedSer_ok {small : SerErr} {bs : List Byte} (h : bs.length ≤ 65535) :
    lenPrefixedSer small bs (bs.length + 2) = .ok (le16 (BitVec.ofNat 16 bs.length) ++ bs) := by
  unfold lenPrefixedSer
  rw [if_neg (by omega), if_neg (by omega)]

/-- Every built-in key is written as these bytes, and read back. -/
theorem BuiltInKey.round_trip (h : BuiltInKey kc ke) :
    (∀ k bs, ke k = some bs →
      (∀ n, (bs.length ≤ n → kc.ser k n = .ok bs) ∧ (n < bs.length → ∃ e, kc.ser k n = .error e)) ∧
      (∀ rest, kc.de (bs ++ rest) = .ok (k, bs.length) ∧ kc.getLen (bs ++ rest) = .ok bs.length)) ∧
    ∀ k n, ke k = none → ∃ e, kc.ser k n = .error e := by
  cases h with
  | num n =>
    refine ⟨fun k bs hk => ?_, fun k n hk => by simp at hk⟩
    cases hk
    exact (num_key_round_trip n).bytes trivial (n := n) (fit_ok (by rw [leBytes_length]; exact Nat.le_refl n))
  | array n =>
    refine ⟨fun k bs hk => ?_, fun k n hk => by simp at hk⟩
    cases hk
    exact (array_key_round_trip n).bytes trivial (n := k.1.length) (fit_ok (Nat.le_refl _))
  | unit =>
    refine ⟨fun k bs hk => ?_, fun k n hk => by simp at hk⟩
    cases hk
    exact unit_key_round_trip.bytes trivial (n := 0) rfl
  | vec cap =>
    refine ⟨fun k bs hk => ?_, fun k n hk => ?_⟩
    · dsimp only at hk
      split at hk
      · next hl =>
        cases hk
        exact (vec_key_round_trip cap).bytes hl (n := k.1.length + 2) (lenPrefixedSer_ok hl)
      · cases hk
    · dsimp only at hk
      split at hk
      · cases hk
      · exact ⟨_, vec_key_too_long cap k (by omega) n⟩
  | str small cap =>
    refine ⟨fun k bs hk => ?_, fun k n hk => ?_⟩
    · dsimp only at hk
      split at hk
      · next hl =>
        cases hk
        exact (str_key_round_trip small cap).bytes hl (n := (utf8 k.1).length + 2) (lenPrefixedSer_ok hl)
      · cases hk
    · dsimp only at hk
      split at hk
      · cases hk
      · refine ⟨.invalidData, ?_⟩
        simp only [strKey, lenPrefixedSer]
        rw [if_pos (by omega)]

/-- Every built-in value is written as these bytes, and read back. -/
theorem BuiltInVal.round_trip (h : BuiltInVal vc ve) : ValRoundTrip vc ∧ ∀ v, vc.ser v (ve v).length = .ok (ve v) := by
  induction h with
  | num n => exact ⟨num_val_round_trip n, fun v => fit_ok (Nat.le_refl _)⟩
  | numArray n count => exact ⟨num_array_val_round_trip n count, fun v => fit_ok (Nat.le_refl _)⟩
  | bool => exact ⟨bool_val_round_trip, fun v => by cases v <;> decide⟩
  | @option V vc enc _ ih =>
    refine ⟨option_val_round_trip vc ih.1, fun v => ?_⟩
    cases v with
    | none => rfl
    | some x =>
      have hb : boolVal.ser true ((enc x).length + 1) = .ok [1#8] := by
        have : boolVal.ser true ((enc x).length + 1) = fit [1#8] ((enc x).length + 1) .bufferTooSmall := rfl
        rw [this]; exact fit_ok (by simp)
      simp only [Option.elim, optionVal, List.length_cons, hb, List.length_nil, Nat.zero_add, Nat.add_sub_cancel, ih.2 x]
      rfl
  | bytes cap => exact ⟨bytes_val_round_trip cap, fun v => fit_ok (Nat.le_refl _)⟩
  | str cap => exact ⟨str_val_round_trip cap, fun v => fit_ok (Nat.le_refl _)⟩

/-- All theorems about maps apply to the built-in types. -/
theorem built_in_codes (hk : BuiltInKey kc ke) (hv : BuiltInVal vc ve) : Codes kc vc ⟨ke, ve⟩ where
  fits k n bs h hl := ((hk.round_trip.1 k bs h).1 n).1 hl
  short k n bs h hl := ((hk.round_trip.1 k bs h).1 n).2 hl
  refused k n h := hk.round_trip.2 k n h
  de k bs rest h := (hk.round_trip.1 k bs h).2 rest
  vfits v n hl := ((hv.round_trip.1.bytes (hv.round_trip.2 v)).1 n).1 hl
  vshort v n hl := ((hv.round_trip.1.bytes (hv.round_trip.2 v)).1 n).2 hl
  vde v := ⟨_, (hv.round_trip.1.bytes (hv.round_trip.2 v)).2⟩

/-- C54. A map of any built-in key and value types returns what was last stored: a fetch gives the value of the last
successful store with the key, unless it was removed since. -/
theorem built_in_map_returns_last_stored [DecidableEq K] {g : Geo} {s : St K} {lim : Nat} (w : g.WF) (hn : 2 ≤ g.pageCount)
    (hk : BuiltInKey kc ke) (hv : BuiltInVal vc ve) (h : MStart g s) (cs : List (MCall K V (Cache K)))
    (hd : ∀ call ∈ cs, MUsable g lim ⟨ke, ve⟩ call) (k : K) (b : List Byte) (hb : lim ≤ b.length) :
    (mcall g kc vc (.fetch k b) (mrun g kc vc cs s).2).1 = .ok (.value (lastSet k none (cs.zip (mrun g kc vc cs s).1))) :=
  fetch_gives_last_stored w (built_in_codes hk hv) hn h cs hd k b hb

/-- Keys of any length and optional values of any length. -/
abbrev VO := Option VB

def anyCoding : Coding VB VO where
  key v := if v.1.length ≤ 65535 then some (le16 (BitVec.ofNat 16 v.1.length) ++ v.1) else none
  val v := v.elim [0#8] (fun x => 1#8 :: x.1)

def anyCalls : List (MCall VB VO (Cache VB)) :=
  [.store (vb [1, 2, 3]) (some (vb [9, 8, 7, 6])) buf48, .store (vb []) (some (vb [])) buf48, .store (vb [1, 2]) none buf48,
   .store (vb [1, 2, 3]) none buf48, .remove (vb [1, 2]) buf48, .store (vb [1]) (some (vb [2, 3])) buf48]

theorem anyCalls_ok : ∀ call ∈ anyCalls, MUsable geo3 16 anyCoding call := by
  intro call h
  simp only [anyCalls, List.mem_cons, List.not_mem_nil, or_false] at h
  rcases h with rfl | rfl | rfl | rfl | rfl | rfl <;>
    first | exact ⟨trivial, fun _ => by decide, by unfold LargeBuffers; decide⟩ | exact ⟨trivial, trivial, by unfold LargeBuffers; decide⟩

def blankAny : St VB :=
  ⟨⟨fun _ => 0xff#8, none, [], fun _ => 0, fun _ => 0, 0, 0⟩, noCache, [], ⟨.address 0, .allPopped, 0⟩, ⟨0, 0, 0, 0⟩⟩

def anyAfter : St VB := (mrun geo3 (vecKey none) (optionVal (bytesVal none)) anyCalls blankAny).2

example : (mcall geo3 (vecKey none) (optionVal (bytesVal none)) (.fetch (vb [1, 2, 3]) buf48) anyAfter).1 = .ok (.value (some none)) ∧
    (mcall geo3 (vecKey none) (optionVal (bytesVal none)) (.fetch (vb []) buf48) anyAfter).1 = .ok (.value (some (some (vb [])))) ∧
    (mcall geo3 (vecKey none) (optionVal (bytesVal none)) (.fetch (vb [1, 2]) buf48) anyAfter).1 = .ok (.value none) := by
  have hs : MStart geo3 blankAny := ⟨⟨fun _ _ _ => rfl, rfl, fun _ => rfl, fun _ => rfl, rfl, rfl⟩, rfl, noCache_fresh _, by simp [blankAny, noCache]⟩
  refine ⟨?_, ?_, ?_⟩ <;>
  · rw [anyAfter, built_in_map_returns_last_stored geo3_wf (by decide) (.vec none) (.option (.bytes none)) hs anyCalls anyCalls_ok _ _ (by decide)]
    decide +kernel

end SeqStorage.Props
