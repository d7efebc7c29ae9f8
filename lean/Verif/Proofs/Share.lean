import Verif.Proofs.Local
import Verif.Model.Share
/-
Two storages on one chip.
-/
set_option linter.unusedSectionVars false

namespace SeqStorage.Proofs
open SeqStorage M Spec

variable {K K' : Type} [DecidableEq K] [DecidableEq K'] {C C' A A' : Type} {V : Type}

/-- Every call of the storage keeps to its range. -/
def InRange (g : Geo) (f : C → M K A) : Prop :=
  ∀ c {s s' : St K}, Alike g s s' → Like g s (f c s) (f c s')

theorem Alike.fueled {g : Geo} {s s' : St K} (h : Alike g s s') (fuel : Option Nat) :
    Alike g { s with fl := { s.fl with fuel := fuel } } { s' with fl := { s'.fl with fuel := fuel } } :=
  ⟨h.mem, rfl, h.buf, h.qit, h.mit, h.ps, h.pp, h.kp, h.dirty⟩

/-- The power left over does not matter when every call comes with its own. -/
structure Near (g : Geo) (s s' : St K) : Prop where
  near : Alike g { s with fl := { s.fl with fuel := none } } { s' with fl := { s'.fl with fuel := none } }

theorem Alike.nearly {g : Geo} {s s' : St K} (h : Alike g s s') : Near g s s' := ⟨h.fueled none⟩

theorem Near.fueled {g : Geo} {s s' : St K} (h : Near g s s') (fuel : Option Nat) :
    Alike g { s with fl := { s.fl with fuel := fuel } } { s' with fl := { s'.fl with fuel := fuel } } :=
  h.near.fueled fuel

theorem Near.refl (g : Geo) (s : St K) : Near g s s := (Alike.refl g s).nearly

/-- The other storage changed the flash. -/
theorem Near.other {g : Geo} {s t : St K} (h : Near g s t) {fl : Flash}
    (hm : ∀ a, g.start ≤ a → a < g.stop → fl.mem a = s.fl.mem a) : Near g { s with fl := fl } t :=
  ⟨⟨fun a h1 h2 => (h.near.mem a h1 h2).trans (hm a h1 h2).symm, rfl, h.near.buf, h.near.qit, h.near.mit, h.near.ps,
    h.near.pp, h.near.kp, h.near.dirty⟩⟩

theorem runBoth_alone {g g' : Geo} {f : C → M K A} {f' : C' → M K' A'} (hf : InRange g f) (hf' : InRange g' f')
    (hg : g.stop ≤ g'.start ∨ g'.stop ≤ g.start) (cs : List ((C ⊕ C') × Option Nat)) :
    ∀ {s : St K} {s' : St K'} {t : St K} {t' : St K'}, s.fl = s'.fl → Near g s t → Near g' s' t' →
      (runBoth f f' cs s s').1 = ((runOne f (firstOnly cs) t).1, (runOne f' (secondOnly cs) t').1) ∧
      Near g (runBoth f f' cs s s').2.1 (runOne f (firstOnly cs) t).2 ∧
      Near g' (runBoth f f' cs s s').2.2 (runOne f' (secondOnly cs) t').2 := by
  induction cs with
  | nil => intro s s' t t' he h h'; exact ⟨rfl, h, h'⟩
  | cons c cs ih =>
    intro s s' t t' he h h'
    obtain ⟨c, fuel⟩ := c
    cases c with
    | inl c =>
      have h1 := hf c (h.fueled fuel)
      obtain ⟨h2, h3, h4⟩ := ih (s := (f c { s with fl := { s.fl with fuel := fuel } }).2)
        (s' := { s' with fl := (f c { s with fl := { s.fl with fuel := fuel } }).2.fl }) (t' := t') rfl h1.alike.nearly
        (h'.other fun a ha1 ha2 => by rw [h1.frame a (by omega), ← he])
      refine ⟨?_, h3, h4⟩
      simp only [runBoth, firstOnly, secondOnly, List.filterMap_cons, runOne] at h2 ⊢
      rw [h2, h1.res]
    | inr c =>
      have h1 := hf' c (h'.fueled fuel)
      obtain ⟨h2, h3, h4⟩ := ih (s := { s with fl := (f' c { s' with fl := { s'.fl with fuel := fuel } }).2.fl })
        (s' := (f' c { s' with fl := { s'.fl with fuel := fuel } }).2) (t := t) rfl
        (h.other fun a ha1 ha2 => by rw [h1.frame a (by omega), he]) h1.alike.nearly
      refine ⟨?_, h3, h4⟩
      simp only [runBoth, firstOnly, secondOnly, List.filterMap_cons, runOne] at h2 ⊢
      rw [h2, h1.res]

theorem runOne_queue (g : Geo) (cs : List (QCall (Cache K) × Option Nat)) (s : St K) :
    runOne (qcall g) cs s = qrunPower g cs s := by
  induction cs generalizing s with
  | nil => rfl
  | cons c cs ih =>
    obtain ⟨c, fuel⟩ := c
    simp only [runOne, qrunPower, ih]

theorem runOne_map (g : Geo) (kc : KeyCodec K) (vc : ValCodec V) (cs : List (MCall K V (Cache K) × Option Nat)) (s : St K) :
    runOne (mcall g kc vc) cs s = mrunPower g kc vc cs s := by
  induction cs generalizing s with
  | nil => rfl
  | cons c cs ih =>
    obtain ⟨c, fuel⟩ := c
    simp only [runOne, mrunPower, ih]

theorem queue_keeps (g : Geo) : InRange (K := K) g (qcall g) := fun c _ _ h => qcall_like c h

theorem map_keeps (g : Geo) (kc : KeyCodec K) (vc : ValCodec V) : InRange g (mcall g kc vc) := fun c _ _ h => mcall_like kc vc c h

theorem qrunPower_like {g : Geo} (cs : List (QCall (Cache K) × Option Nat)) :
    ∀ {s s' : St K}, Near g s s' → (qrunPower g cs s').1 = (qrunPower g cs s).1 ∧ Near g (qrunPower g cs s).2 (qrunPower g cs s').2 ∧
      ∀ a, a < g.start ∨ g.stop ≤ a → (qrunPower g cs s).2.fl.mem a = s.fl.mem a := by
  induction cs with
  | nil => intro s s' h; exact ⟨rfl, h, fun _ _ => rfl⟩
  | cons c cs ih =>
    intro s s' h
    obtain ⟨c, fuel⟩ := c
    have h1 := qcall_like c (h.fueled fuel)
    obtain ⟨h2, h3, h4⟩ := ih h1.alike.nearly
    exact ⟨by simp only [qrunPower]; rw [h1.res, h2], h3, fun a ha => (h4 a ha).trans (h1.frame a ha)⟩

theorem mrunPower_like {g : Geo} (kc : KeyCodec K) (vc : ValCodec V) (cs : List (MCall K V (Cache K) × Option Nat)) :
    ∀ {s s' : St K}, Near g s s' → (mrunPower g kc vc cs s').1 = (mrunPower g kc vc cs s).1 ∧
      Near g (mrunPower g kc vc cs s).2 (mrunPower g kc vc cs s').2 ∧
      ∀ a, a < g.start ∨ g.stop ≤ a → (mrunPower g kc vc cs s).2.fl.mem a = s.fl.mem a := by
  induction cs with
  | nil => intro s s' h; exact ⟨rfl, h, fun _ _ => rfl⟩
  | cons c cs ih =>
    intro s s' h
    obtain ⟨c, fuel⟩ := c
    have h1 := mcall_like kc vc c (h.fueled fuel)
    obtain ⟨h2, h3, h4⟩ := ih h1.alike.nearly
    exact ⟨by simp only [mrunPower]; rw [h1.res, h2], h3, fun a ha => (h4 a ha).trans (h1.frame a ha)⟩

end SeqStorage.Proofs
