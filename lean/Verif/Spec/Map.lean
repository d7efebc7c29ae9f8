import Verif.Spec.Queue
/-
What a map is supposed to do. Independent of the model.
-/

namespace SeqStorage.Spec

/-- What can be done with a map. Every call gets a buffer. `fetchAll` makes an iterator and asks it
for the next item once per list element, with the given buffer. `restart` throws away everything but
the flash contents; `ρ` says what to go on with. -/
inductive MCall (K V ρ : Type) where
  | store (k : K) (v : V) (buf : List Byte)
  | fetch (k : K) (buf : List Byte)
  | remove (k : K) (buf : List Byte)
  | removeAll (buf : List Byte)
  | fetchAll (buf : List Byte) (steps : List (List Byte))
  | restart (r : ρ)

/-- What comes back. -/
inductive MAnswer (K V : Type) where
  | done
  | value (v : Option V)
  | items (l : List (Except Err (Option (K × V))))
  deriving DecidableEq

section
variable {K V : Type}

/-- The bytes of keys and values; `none` is for keys that cannot be written. -/
structure Coding (K V : Type) where
  key : K → Option (List Byte)
  val : V → List Byte

/-- The data of an item. -/
def Coding.data (c : Coding K V) (k : K) (v : V) : List Byte := (c.key k).getD [] ++ c.val v

/-- The bytes taken by the items of some keys. -/
def Coding.total (c : Coding K V) (W : Nat) (m : K → Option V) (ks : List K) : Nat :=
  (ks.map fun k => match m k with
    | some v => itemSize W (c.data k v)
    | none => 0).sum

/-- All current items and the new one fit into one page together. -/
def FitsOne (W page : Nat) (c : Coding K V) (m : K → Option V) (k : K) (v : V) : Prop :=
  ∃ ks : List K, (∀ k', m k' ≠ none → k' ∈ ks) ∧ c.total W m ks + itemSize W (c.data k v) + 2 * W ≤ page

/-- A buffer shorter than `lim`. -/
def Small (lim : Nat) (b : List Byte) : Prop := b.length < lim

/-- What is stored fits buffers of `lim` bytes, unless it does not even fit a page. -/
def Within {ρ : Type} (W page lim : Nat) (c : Coding K V) : MCall K V ρ → Prop
  | .store k v _ => FitsPage W page (c.data k v) → pad W (c.data k v).length ≤ lim
  | _ => True

/-- All buffers have at least `lim` bytes. -/
def LargeBuffers {ρ : Type} (lim : Nat) : MCall K V ρ → Prop
  | .store _ _ b | .fetch _ b | .remove _ b | .removeAll b => lim ≤ b.length
  | .fetchAll b steps => lim ≤ b.length ∧ ∀ b' ∈ steps, lim ≤ b'.length
  | .restart _ => True

section
variable [DecidableEq K]

/-- `m` with another value for `k`. -/
def put (m : K → Option V) (k : K) (v : Option V) : K → Option V := fun k' => if k' = k then v else m k'

/-- The last value for a key in a list. -/
def lastOf (k : K) : List (K × V) → Option V
  | [] => none
  | (k', v) :: l =>
    match lastOf k l with
    | some x => some x
    | none => if k' = k then some v else none

/-- The answers of an iterator that has the items `todo` before it. With a buffer that is too small an item may
be passed over. Of what comes after the end it is only said that the one error is that of a small buffer. -/
def shows (lim : Nat) : (todo : List (K × V)) → List (List Byte) → List (Except Err (Option (K × V))) → Prop
  | _, [], l => l = []
  | todo, b :: steps, l =>
    (∃ x rest l', todo = x :: rest ∧ l = .ok (some x) :: l' ∧ shows lim rest steps l') ∨
    (todo = [] ∧ ∃ l', l = .ok none :: l' ∧ l'.length = steps.length ∧ ∀ e, Except.error e ∈ l' → ∃ n, e = .bufferTooSmall n) ∨
    (Small lim b ∧ ∃ n l', l = .error (.bufferTooSmall n) :: l' ∧
      (shows lim todo steps l' ∨ ∃ x rest, todo = x :: rest ∧ shows lim rest steps l'))

/-- Why a store is refused. -/
def Refused (W page : Nat) (c : Coding K V) (m : K → Option V) (k : K) (v : V) (b : List Byte) (r : Except Err (MAnswer K V)) :
    Prop :=
  ((c.key k = none ∨ b.length < (c.data k v).length) ∧ ∃ e, r = .error (.serialization e)) ∨
  (c.key k ≠ none ∧ (c.data k v).length ≤ b.length ∧ ¬ FitsPage W page (c.data k v) ∧ r = .error .itemTooBig) ∨
  (¬ FitsOne W page c m k v ∧ r = .error .fullStorage)

/-- The item can be written at all. -/
def Writable (W page : Nat) (c : Coding K V) (k : K) (v : V) (b : List Byte) : Prop :=
  c.key k ≠ none ∧ (c.data k v).length ≤ b.length ∧ FitsPage W page (c.data k v)

/-- One call on the map `m`, answered by `r`, leaving `m'`, on pages of `page` bytes and words of `W` bytes. Items fit
buffers of `lim` bytes. -/
def mapStep {ρ : Type} (W page lim : Nat) (c : Coding K V) (m : K → Option V) (call : MCall K V ρ)
    (r : Except Err (MAnswer K V)) (m' : K → Option V) : Prop :=
  match call with
  | .store k v b =>
    (Writable W page c k v b ∧ r = .ok .done ∧ m' = put m k (some v)) ∨ (Refused W page c m k v b r ∧ m' = m)
  | .fetch k _ => r = .ok (.value (m k)) ∧ m' = m
  | .remove k _ => r = .ok .done ∧ m' = put m k none
  | .removeAll _ => r = .ok .done ∧ m' = fun _ => none
  | .fetchAll _ steps => m' = m ∧ ∃ todo l, (∀ k, lastOf k todo = m k) ∧ r = .ok (.items l) ∧ shows lim todo steps l
  | .restart _ => r = .ok .done ∧ m' = m

/-! ### With small buffers and power loss -/

/-- Keys with property `F` may have lost their value. -/
def Fades (F : K → Prop) (m m' : K → Option V) : Prop := ∀ k, m' k = m k ∨ (F k ∧ m' k = none)

/-- One call with any buffer, during which power may be lost (`power`), or which comes after a power loss. A map is
given by the current values and by the keys that are fading: those of a remove that failed. They may lose their value
at any time. A completed store ends that. -/
def mapPowerStep {ρ : Type} (power : Bool) (W page lim : Nat) (c : Coding K V) (st : (K → Option V) × (K → Prop)) (call : MCall K V ρ)
    (r : Except Err (MAnswer K V)) (st' : (K → Option V) × (K → Prop)) : Prop :=
  match call with
  | .store k v b => ∃ m, Fades st.2 st.1 m ∧
    ((Writable W page c k v b ∧ r = .ok .done ∧ st' = (put m k (some v), fun _ => False)) ∨
     ((Refused W page c st.1 k v b r ∨ (Small lim b ∧ ∃ n, r = .error (.bufferTooSmall n))) ∧ st' = (m, st.2)) ∨
     (power = true ∧ r = .error .shutoff ∧ (st' = (m, st.2) ∨ st' = (put m k (some v), fun _ => False))))
  | .fetch k b => ∃ m, Fades st.2 st.1 m ∧ st' = (m, st.2) ∧
    (r = .ok (.value (m k)) ∨ (Small lim b ∧ ∃ n, r = .error (.bufferTooSmall n)) ∨ (power = true ∧ r = .error .shutoff))
  | .remove k b =>
    (∃ m, Fades st.2 st.1 m ∧ r = .ok .done ∧ st' = (put m k none, st.2)) ∨
    (∃ m, Fades (fun k' => st.2 k' ∨ k' = k) st.1 m ∧ st' = (m, fun k' => st.2 k' ∨ k' = k) ∧
      ((Small lim b ∧ ∃ n, r = .error (.bufferTooSmall n)) ∨ (power = true ∧ r = .error .shutoff)))
  | .removeAll b =>
    (r = .ok .done ∧ st' = (fun _ => none, st.2)) ∨
    (∃ m, Fades (fun _ => True) st.1 m ∧ st' = (m, fun _ => True) ∧
      ((Small lim b ∧ ∃ n, r = .error (.bufferTooSmall n)) ∨ (power = true ∧ r = .error .shutoff)))
  | .fetchAll _ steps => st' = st ∧ (power = false →
      ∃ todo l, (∀ k, lastOf k todo = st.1 k) ∧ r = .ok (.items l) ∧ shows lim todo steps l)
  | .restart _ => r = .ok .done ∧ st' = st

end
end

end SeqStorage.Spec
