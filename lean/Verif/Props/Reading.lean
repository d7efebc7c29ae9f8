import Verif.Proofs.Leaves
import Verif.Proofs.SafeOps
import Verif.Proofs.MapDet
import Verif.Props.Map
/-
What asking costs: C57.
-/

set_option linter.unusedSectionVars false

namespace SeqStorage.Props
open M Spec Codec

variable {K V : Type} [DecidableEq K] {g : Geo} {s : St K}

/-- Calls that only ask: no pushes, no pops. -/
def Asks {ρ : Type} : QCall ρ → Prop
  | .push .. => False
  | .pop _ => False
  | .iterate steps => ∀ x ∈ steps, x.2 = false
  | _ => True

/-- Nothing is programmed: every byte stays or is erased, and no word has been written more often. -/
structure NotProgrammed (f f' : Flash) : Prop where
  mem : ∀ a, f'.mem a = f.mem a ∨ f'.mem a = 0xff#8
  peak : f'.peak = f.peak

/-- The flash has neither been written nor erased. -/
structure Untouched (f f' : Flash) : Prop where
  mem : f'.mem = f.mem
  erases : f'.erases = f.erases
  writes : f'.writes = f.writes
  peak : f'.peak = f.peak
  fuel : f'.fuel = f.fuel

def notProgrammed : FlashRel where
  rel := NotProgrammed
  refl _ := ⟨fun _ => Or.inl rfl, rfl⟩
  trans f1 f2 f3 h1 h2 := ⟨fun a => by
    rcases h2.mem a with e | e
    · rw [e]; exact h1.mem a
    · exact Or.inr e, h2.peak.trans h1.peak⟩
  fault _ := ⟨fun _ => Or.inl rfl, rfl⟩

def untouched : FlashRel where
  rel := Untouched
  refl _ := ⟨rfl, rfl, rfl, rfl, rfl⟩
  trans _ _ _ h1 h2 := ⟨h2.mem.trans h1.mem, h2.erases.trans h1.erases, h2.writes.trans h1.writes,
    h2.peak.trans h1.peak, h2.fuel.trans h1.fuel⟩
  fault _ := ⟨rfl, rfl, rfl, rfl, rfl⟩

theorem erase_programs_nothing (f : Flash) (a b : Nat) : NotProgrammed f (f.erase g a b).2 := by
  unfold Flash.erase
  split
  · exact notProgrammed.fault f
  · split
    · exact notProgrammed.fault f
    · split
      · exact notProgrammed.fault f
      · refine ⟨fun x => ?_, rfl⟩
        show eraseBytes _ _ _ x = _ ∨ eraseBytes _ _ _ x = _
        unfold eraseBytes
        split
        · exact Or.inr rfl
        · exact Or.inl rfl

/-- C57. Asking a queue programs nothing, whatever the flash holds and whatever the caches say: looking at
items, iterating over them and asking for sizes can erase pages but never write a byte. -/
theorem queue_queries_program_nothing (s : St K) (c : QCall (Cache K)) (hc : Asks c) :
    NotProgrammed s.fl (qcall g c s).2.fl := by
  have hE : ∀ f a b, notProgrammed.rel f (f.erase g a b).2 := erase_programs_nothing
  have : Leaves notProgrammed (qcall g c) := by
    cases c with
    | push d o => exact hc.elim
    | pop b => exact hc.elim
    | peek b => exact (Leaves.setBuf b).bind fun _ => (Leaves.peek hE).bind fun _ => .pure _
    | iterate steps =>
      exact (Leaves.iterNew hE).bind fun _ => (Leaves.iterSteps hE steps hc).bind fun _ => .pure _
    | maxFit =>
      refine Leaves.bind ?_ fun _ => .pure _
      exact Leaves.repair (.maxFitInner g) (.queueRepair hE)
    | spaceLeft =>
      refine Leaves.bind ?_ fun _ => .pure _
      exact Leaves.repair (.spaceInner g) (.queueRepair hE)
    | restart r => exact (Leaves.modify (f := fun s : St K => { s with cache := r }) fun _ => rfl).bind fun _ => .pure _
  exact this.out s

/-- Two pages whose items have all been popped, with the second one in use. -/
def spentSt : St Unit := (qrun geo2 [.pop buf32, .pop buf32, .restart noCache] st2).2

example : NotProgrammed spentSt.fl (qcall geo2 (.peek buf32) spentSt).2.fl := queue_queries_program_nothing _ _ trivial

/-- Looking does erase: the first page, whose items are gone. -/
theorem peek_erases : spentSt.fl.erases = [] ∧ (qcall geo2 (.peek buf32) spentSt).2.fl.erases = [0] := by decide +kernel

/-! ### Sizes -/

/-- The zero bits of a byte. -/
def zeroBits (b : Byte) : Nat := ((List.range 8).filter fun i => !b.getLsbD i).length

/-- The zero bits of `n` bytes. -/
def zeroBitsIn (mem : Nat → Byte) (a : Nat) : Nat → Nat
  | 0 => 0
  | n + 1 => zeroBits (mem a) + zeroBitsIn mem (a + 1) n

/-- A page whose last word carries a marker, half of whose bits may be missing, though the first does not. -/
def EndMarkOnly (g : Geo) (mem : Nat → Byte) (i : Nat) : Prop :=
  zeroBitsIn mem (g.start + i * g.eraseSize) g.readSize < 4 ∧
    4 ≤ zeroBitsIn mem (g.start + (i + 1) * g.eraseSize - g.readSize) g.readSize

theorem zeroBits_eq (b : Byte) : countZeros b = zeroBits b := by
  unfold countZeros zeroBits
  have : ∀ (l : List Nat) (n : Nat), l.foldl (fun acc i => if b.getLsbD i then acc else acc + 1) n =
      n + (l.filter fun i => !b.getLsbD i).length := by
    intro l
    induction l with
    | nil => intro n; rfl
    | cons x l ih =>
      intro n
      rw [List.foldl_cons, ih]
      cases hx : b.getLsbD x <;> simp [hx] <;> omega
  rw [this, Nat.zero_add]

theorem zeroBitsIn_eq (mem : Nat → Byte) (a n : Nat) : ((readBytes mem a n).map countZeros).sum = zeroBitsIn mem a n := by
  induction n generalizing a with
  | zero => rfl
  | succ n ih =>
    unfold zeroBitsIn
    rw [← ih, ← zeroBits_eq]
    unfold readBytes
    rw [List.range_succ_eq_map]
    simp only [List.map_cons, List.map_map, List.sum_cons, Nat.add_zero]
    congr 3
    funext x
    simp only [Function.comp]
    congr 2; omega

theorem torn_state_iff (w : g.WF) (mem : Nat → Byte) (i : Nat) :
    stateAt g mem i = .error .corrupted ↔ EndMarkOnly g mem i := by
  have hr := w.read_le
  have hf := w.fits
  have e1 : g.pageAddr i = g.start + i * g.eraseSize := by unfold Geo.pageAddr; rw [Nat.mul_comm]
  have e2 : g.pageAddr i + (g.eraseSize - g.readSize) = g.start + (i + 1) * g.eraseSize - g.readSize := by
    have := w.read_le
    have := w.word_le
    rw [e1, Nat.succ_mul]; omega
  unfold stateAt EndMarkOnly
  rw [e2, e1]
  unfold marked
  rw [zeroBitsIn_eq, zeroBitsIn_eq]
  generalize zeroBitsIn mem (g.start + i * g.eraseSize) g.readSize = x
  generalize zeroBitsIn mem (g.start + (i + 1) * g.eraseSize - g.readSize) g.readSize = y
  by_cases hx : 4 ≤ x <;> by_cases hy : 4 ≤ y <;> simp [hx, hy, stateOfMarkers] <;> omega

theorem repair_leaves (w : g.WF) (l : List Nat) (hl : ∀ i ∈ l, i < g.pageCount) (s : St K)
    (h : ∀ i, i < g.pageCount → ¬ EndMarkOnly g s.fl.mem i) : (generalRepairIn g l s).2 = s := by
  induction l with
  | nil => rfl
  | cons i l ih =>
    unfold generalRepairIn
    rw [bind_ok (attempt_run _ s), getPageState_any w s (hl i (by simp))]
    have hx : stateAt g s.fl.mem i ≠ .error .corrupted := fun he =>
      (h i (hl i (by simp))) ((torn_state_iff w _ i).1 he)
    generalize stateAt g s.fl.mem i = x at hx ⊢
    dsimp only
    split
    · exact (hx rfl).elim
    · exact ih fun i hi => hl i (by simp [hi])

theorem asked_leaves (w : g.WF) {α : Type} {m : M K α} (hm : Leaves untouched m) (s : St K)
    (h : ∀ i, i < g.pageCount → ¬ EndMarkOnly g s.fl.mem i) :
    Untouched s.fl (withRepair m (Queue.tryRepair g) s).2.fl := by
  unfold withRepair
  rw [bind_ok (attempt_run _ s)]
  have h1 := hm.out s
  generalize m s = r at h1 ⊢
  obtain ⟨r, s1⟩ := r
  dsimp only at h1 ⊢
  split
  · have hs : (Queue.tryRepair g s1).2 = { s1 with cache := s1.cache.invalidate } := by
      show (generalRepairIn g (g.pages 0) { s1 with cache := s1.cache.invalidate }).2 = _
      exact repair_leaves w _ (pages_lt w) _ (by dsimp only; rw [h1.mem]; exact h)
    rw [bind_run]
    generalize Queue.tryRepair g s1 = r2 at hs ⊢
    obtain ⟨r2, s2⟩ := r2
    cases hs
    cases r2 with
    | ok a => exact untouched.trans _ _ _ h1 (show Untouched s1.fl (m _).2.fl from hm.out { s1 with cache := s1.cache.invalidate })
    | error e => exact h1
  · exact h1

/-- C57. As long as no page is half erased, asking a queue for the largest item that fits or for the space
that is left neither writes nor erases, whatever else the flash holds and whatever the caches say. -/
theorem queue_sizes_cost_nothing (w : g.WF) (s : St K) (h : ∀ i, i < g.pageCount → ¬ EndMarkOnly g s.fl.mem i) :
    Untouched s.fl (qcall g .maxFit s).2.fl ∧ Untouched s.fl (qcall g .spaceLeft s).2.fl := by
  have key : ∀ {α : Type} {m : M K α} (f : α → QAnswer), Leaves untouched m →
      Untouched s.fl ((withRepair m (Queue.tryRepair g) >>= fun r => pure (f r)) s).2.fl := by
    intro α m f hm
    have := asked_leaves w hm s h
    rw [bind_run]
    generalize withRepair m (Queue.tryRepair g) s = r at this ⊢
    obtain ⟨r, s1⟩ := r
    cases r <;> exact this
  exact ⟨key _ (.maxFitInner g), key _ (.spaceInner g)⟩

/-- No page of a queue in use is half erased. -/
theorem reached_not_torn (w : g.WF) (h : Reached g s) (i : Nat) (hi : i < g.pageCount) : ¬ EndMarkOnly g s.fl.mem i := by
  obtain ⟨σ, P, h1⟩ := h.qi w
  have h2 := getPageState_run w s hi (h1.fs.pages i hi)
  rw [getPageState_any w s hi, h1.fs.st i hi] at h2
  rw [← torn_state_iff w, (Prod.mk.inj h2).1]
  intro he
  have := (Shape.st_err.1 he).2.2.1
  rw [h1.fs.torn_free rfl] at this
  simp at this

/-- C57. So a queue in use can be asked at any time. -/
theorem queue_in_use_sizes_cost_nothing (w : g.WF) (h : Reached g s) :
    Untouched s.fl (qcall g .maxFit s).2.fl ∧ Untouched s.fl (qcall g .spaceLeft s).2.fl :=
  queue_sizes_cost_nothing w s (reached_not_torn w h)

example : Untouched st2.fl (qcall geo2 .maxFit st2).2.fl ∧ Untouched st2.fl (qcall geo2 .spaceLeft st2).2.fl :=
  queue_in_use_sizes_cost_nothing geo2_wf st2_reached

/-- A page with the marker at its end only, as a cut off erase leaves it. -/
def halfSt : St Unit := { freshSt with fl := { freshSt.fl with mem := fun a => if a < 28 then 0xff#8 else if a < 32 then 0 else 0xff#8 } }

/-- With a half erased page the question makes the queue erase it. -/
theorem half_erased_is_erased : EndMarkOnly geo2 halfSt.fl.mem 0 ∧
    (qcall geo2 .maxFit halfSt).2.fl.erases = [0] := ⟨by unfold EndMarkOnly; decide +kernel, by decide +kernel⟩

/-- Nonsense on the flash that has no half erased page. -/
def nonsenseSt : St Unit := { freshSt with fl := { freshSt.fl with mem := fun a => if a < 60 then BitVec.ofNat 8 (a * 7) else 0xff#8 } }

example : Untouched nonsenseSt.fl (qcall geo2 .maxFit nonsenseSt).2.fl :=
  (queue_sizes_cost_nothing geo2_wf nonsenseSt (by
    intro i hi
    have : i = 0 ∨ i = 1 := by have : geo2.pageCount = 2 := by decide
                               omega
    rcases this with rfl | rfl <;> (unfold EndMarkOnly; decide +kernel))).1

/-! ### The map -/

variable {kc : KeyCodec K} {vc : ValCodec V} {c : Coding K V} {lim : Nat}

/-- Calls that only read. -/
def Looks {ρ : Type} : MCall K V ρ → Prop
  | .fetch .. => True
  | .fetchAll .. => True
  | _ => False

theorem withRepair_fine {α : Type} {m : M K α} {r : M K Unit} {s : St K} (h : (m s).1 ≠ .error .corrupted) :
    withRepair m r s = m s := by
  unfold withRepair
  rw [bind_ok (attempt_run _ s)]
  generalize m s = x at h ⊢
  obtain ⟨x, s1⟩ := x
  dsimp only at h ⊢
  split
  · exact (h rfl).elim
  · rfl

/-- C57. Fetching and iterating in a map in use neither write nor erase, whatever the buffers, whatever the
key and however far the iteration goes. -/
theorem map_reads_cost_nothing (w : g.WF) (hc : Codes kc vc c) (hn : 2 ≤ g.pageCount) (h : MReached kc vc c g lim s)
    (call : MCall K V (Cache K)) (hcall : Looks call) : Untouched s.fl (mcall g kc vc call s).2.fl := by
  obtain ⟨σ, P, b0, h1, _⟩ := h.mi w hc hn
  have hb : ∀ b, MG kc vc ⟨true, false, some lim, fun _ => True, false⟩ g false { s with buf := b } σ P (fun _ => False) := fun b =>
    have h2 : MG kc vc ⟨true, false, some lim, fun _ => True, false⟩ g false { s with buf := b0 } σ P (fun _ => False) :=
      { h1 with log := fun h => by simp at h }
    h2.setBuf (b := b) (fun h => by simp at h)
  have ht : σ.corr = false := h1.good.fs.torn_free rfl
  cases call with
  | fetch k b =>
    show Untouched s.fl ((Map.fetchItem g kc vc k >>= fun r => pure (MAnswer.value r : MAnswer K V)) { s with buf := b }).2.fl
    have hne : (Map.fetchLoc g kc k { s with buf := b }).1 ≠ .error .corrupted := by
      rcases (fetchLoc_sat w hc.lawful hn (hb b) k).cases with ⟨r, s1, he, _⟩ | ⟨e, s1, he, _, _, hE⟩
      · rw [he]; simp
      · rw [he]
        rcases hE with hE | hE
        · intro hx
          cases hx
          obtain ⟨_, _, _, hx⟩ := hE
          cases hx
        · rw [ht] at hE; simp at hE
    have hL : ∃ f : _ → M K (Option V), Map.fetchItem g kc vc k = withRepair (Map.fetchLoc g kc k) (Map.tryRepair g kc) >>= f ∧
        ∀ r, Leaves untouched (f r) := by
      refine ⟨_, rfl, fun r => ?_⟩
      split
      · exact .pure _
      · rename_i h _ _
        refine (Leaves.get (K := K)).bind fun s => ?_
        have hj : ∀ n, Leaves untouched (K := K) (if h.len.toNat < n then M.throw .panic else
            Map.liftSer (vc.de ((s.buf.take h.len.toNat).drop n)) >>= fun x => pure (some x.1)) := by
          intro n
          split
          · exact .throw _
          · exact (Leaves.liftSer _).bind fun _ => .pure _
        dsimp only
        split
        · exact (Leaves.pure _).bind fun n => hj n
        · exact (Leaves.liftSer _).bind fun n => hj n
    obtain ⟨f, hf, hL⟩ := hL
    have := (((Leaves.fetchLoc g kc k).bind hL).bind (f := fun r => pure (MAnswer.value r : MAnswer K V)) fun r => .pure _).out { s with buf := b }
    have he : Map.fetchItem g kc vc k { s with buf := b } = (Map.fetchLoc g kc k >>= f) { s with buf := b } := by
      rw [hf, bind_run, withRepair_fine hne, ← bind_run]
    rw [bind_run, he]
    rw [bind_run] at this
    exact this
  | fetchAll b steps =>
    show Untouched s.fl ((Map.fetchAll g kc >>= fun _ => mapSteps g kc vc steps >>= fun l => pure (MAnswer.items l : MAnswer K V)) { s with buf := b }).2.fl
    rcases (fetchAll_sat w (hb b) hn).cases with ⟨r, s1, he, _, hfl, _⟩ | ⟨e, s1, he, _, hE, _⟩
    · rw [bind_run, he]
      have := ((Leaves.mapSteps (R := untouched) g kc vc steps).bind (f := fun l => pure (MAnswer.items l)) fun _ => .pure _).out s1
      rw [hfl] at this
      exact this
    · rw [ht] at hE; simp at hE
  | _ => exact hcall.elim

example : Untouched mst.fl (mcall geo3 (numKey 2) (numVal 4) (.fetch 1#16 [0#8]) mst).2.fl :=
  map_reads_cost_nothing geo3_wf (num_codes 2 4) (by decide) mst_reached _ trivial

example : Untouched mst.fl (mcall geo3 (numKey 2) (numVal 4) (.fetchAll buf48 [buf48, [], buf48]) mst).2.fl :=
  map_reads_cost_nothing geo3_wf (num_codes 2 4) (by decide) mst_reached _ trivial

end SeqStorage.Props
