import Verif.Props.QueueCrash
import Verif.Proofs.Buffered
/-
C29: a `BufferedQueue` is one first-in first-out queue.
-/

set_option linter.unusedSectionVars false

namespace SeqStorage.Props
open M Spec

variable {K : Type} [DecidableEq K] {g : Geo} {D : List Byte → Prop} {q : BQ K} {cap : Nat}

/-- A new `BufferedQueue` with `cap` bytes of RAM on an erased region. -/
structure BStart (g : Geo) (cap : Nat) (q : BQ K) : Prop where
  flash : Start g q.st
  ram : q.ram = Ring.new cap

/-- Popping with large buffers gives the items `l` and then nothing. -/
def BContents (g : Geo) (cap : Nat) (q : BQ K) (l : List (List Byte)) : Prop :=
  ∀ b, g.eraseSize ≤ b.length → cap ≤ b.length → ∀ k,
    (brun g (List.replicate k (.pop b)) q).1 = (List.range k).map fun i => .ok (.item l[i]?)

/-- The states a buffered queue can get into when the flash never fails. -/
def BReached (g : Geo) (cap : Nat) (q : BQ K) : Prop :=
  ∃ q0 cs, BStart g cap q0 ∧ (∀ c ∈ cs, BDocumented g c) ∧ q = (brun g cs q0).2

theorem BContents.of_step (Inv : BQ K → List (List Byte) → Prop)
    (hstep : ∀ q l, Inv q l → ∀ b, g.eraseSize ≤ b.length → cap ≤ b.length →
      (bcall g (.pop b) q).1 = .ok (.item l.head?) ∧ Inv (bcall g (.pop b) q).2 l.tail)
    {q : BQ K} {l : List (List Byte)} (h : Inv q l) : BContents g cap q l := by
  intro b hb hb' k
  induction k generalizing q l with
  | zero => rfl
  | succ k ih =>
    obtain ⟨h1, h2⟩ := hstep q l h b hb hb'
    rw [List.replicate_succ, List.range_succ_eq_map]
    simp only [brun, h1, ih h2, List.map_cons, List.map_map]
    congr 1
    · simp [List.head?_eq_getElem?]
    · apply List.map_congr_left
      intro i _
      simp

/-- The invariant without failures. -/
def BGood (g : Geo) (cap : Nat) (q : BQ K) (p : Split) : Prop :=
  BHolds (Holds ⟨true, false, none, fun _ => True, false⟩ g) (fun _ => True) cap q p ∧ Sizes g.word g.eraseSize cap p

theorem BStart.good (w : g.WF) (h : BStart g cap q) : BGood g cap q ([], []) := by
  refine ⟨⟨⟨_, _, h.flash.qi w, rfl⟩, ?_, ?_, by simp⟩, by simp, by simp [footprint]⟩
  · rw [h.ram]; exact Ring.rep_new cap
  · rw [h.ram]; simp [Ring.new, Ring.cap]

theorem Holds.fits (w : g.WF) {md : Mode} {s : St K} {l : List (List Byte)} (h : Holds md g s l) {d : List Byte} (hd : d ∈ l) :
    pad g.word d.length + pad g.word 8 + 2 * g.word ≤ g.eraseSize := by
  obtain ⟨σ, P, h, rfl⟩ := h
  exact h.item_le w hd

theorem BGood.step (w : g.WF) {p : Split} (h : BGood g cap q p) (c : BCall (Cache K)) (hd : BDocumented g c) :
    ∃ p', splitStep (queueStep g.word g.eraseSize g.pageCount) cap p c (bcall g c q).1 p' ∧
      BHolds (Holds ⟨true, false, none, fun _ => True, false⟩ g) (fun _ => True) cap (bcall g c q).2 p' :=
  bcall_sat (works_cf w K) h.1 c hd (by cases c <;> trivial)

theorem BGood.contents (w : g.WF) {p : Split} (h : BGood g cap q p) : BContents g cap q (p.1 ++ p.2) := by
  refine BContents.of_step (fun q l => ∃ p, BGood g cap q p ∧ l = p.1 ++ p.2) ?_ ⟨p, h, rfl⟩
  rintro q l ⟨p, h, rfl⟩ b hb hb'
  obtain ⟨p', h1, h2⟩ := h.step w (.pop b) trivial
  obtain ⟨h3, h4⟩ := split_one (c := .pop b) h.2 ⟨hb, hb'⟩ h1
  exact ⟨h3.1, p', ⟨h2, h4⟩, h3.2.symm⟩

/-- C29. With large buffers, every sequence of calls on a new `BufferedQueue` answers like a single list of byte
strings, and that list is what can be popped in the end. -/
theorem buffered_is_one_queue (w : g.WF) (h : BStart g cap q) (cs : List (BCall (Cache K))) (hd : ∀ c ∈ cs, BDocumented g c)
    (hb : ∀ c ∈ cs, LargeBuf g.eraseSize cap c) :
    ∃ l, Runs (oneQueue cap) [] cs (brun g cs q).1 l ∧ BContents g cap (brun g cs q).2 l := by
  obtain ⟨p, h1, h2⟩ := brun_sat (works_cf w K) cs (h.good w).1 hd (fun c _ => by cases c <;> trivial)
  obtain ⟨h3, h4⟩ := Runs.image (step' := oneQueue cap) (fun p : Split => p.1 ++ p.2) (Sizes g.word g.eraseSize cap) cs
    (fun c hc q r q' hI hs => split_one hI (hb c hc) hs) (h.good w).2 h1
  exact ⟨_, h3, BGood.contents w ⟨h2, h4⟩⟩

/-- C29, with buffers of any size: the calls behave like those of a flash queue with a bounded FIFO in front of it. -/
theorem buffered_splits (w : g.WF) (h : BStart g cap q) (cs : List (BCall (Cache K))) (hd : ∀ c ∈ cs, BDocumented g c) :
    ∃ p, Runs (splitStep (queueStep g.word g.eraseSize g.pageCount) cap) ([], []) cs (brun g cs q).1 p ∧
      Contents g (brun g cs q).2.st p.1 ∧ (brun g cs q).2.ram.count = p.2.length := by
  obtain ⟨p, h1, h2⟩ := brun_sat (works_cf w K) cs (h.good w).1 hd (fun c _ => by cases c <;> trivial)
  exact ⟨p, h1, Holds.contents_cf w (md := ⟨true, false, none, fun _ => True, false⟩) rfl rfl h2.flash, h2.ram.count⟩

theorem BReached.good (w : g.WF) (h : BReached g cap q) : ∃ p, BGood g cap q p := by
  obtain ⟨q0, cs, h0, hd, rfl⟩ := h
  obtain ⟨p, _, h2⟩ := brun_sat (works_cf w K) cs (h0.good w).1 hd (fun c _ => by cases c <;> trivial)
  refine ⟨p, h2, fun d hd => by have := Holds.fits w h2.flash hd; omega, ?_⟩
  · have h1 := h2.ram.used
    have h3 := h2.ram.fits
    rw [h2.cap, h1] at h3
    exact h3

/-- C29. A drain that may not overwrite leaves the contents alone, whether it succeeds or fails and whatever the buffer. -/
theorem drain_keeps_contents (w : g.WF) (h : BReached g cap q) (b : List Byte) :
    ∃ l, BContents g cap q l ∧ BContents g cap (bcall g (.drainOne b false) q).2 l ∧
      BContents g cap (bcall g (.drainAll b false) q).2 l := by
  obtain ⟨p, h⟩ := h.good w
  refine ⟨p.1 ++ p.2, h.contents w, ?_, ?_⟩
  · obtain ⟨p', ⟨x, _, h1⟩, h2⟩ := h.step w (.drainOne b false) trivial
    obtain ⟨⟨⟨lost, h3, h4⟩, _⟩, h6⟩ := move_one h.2 h1
    obtain rfl := h4 rfl
    rw [h3]
    exact BGood.contents w ⟨h2, h6⟩
  · obtain ⟨p', ⟨x, _, h1⟩, h2⟩ := h.step w (.drainAll b false) trivial
    obtain ⟨⟨⟨lost, h3, h4⟩, _⟩, h6⟩ := moves_one h.2 h1
    obtain rfl := h4 rfl
    rw [h3]
    exact BGood.contents w ⟨h2, h6⟩

/-- C29. A successful `drain_all` with a large buffer leaves everything in flash. -/
theorem drain_all_empties_ram (w : g.WF) (h : BReached g cap q) (b : List Byte) (hb : cap ≤ b.length)
    (hok : (bcall g (.drainAll b false) q).1 = .ok .done) :
    ∃ l, BContents g cap q l ∧ Contents g (bcall g (.drainAll b false) q).2.st l ∧
      (bcall g (.drainAll b false) q).2.ram.count = 0 := by
  obtain ⟨p, h⟩ := h.good w
  obtain ⟨p', h1, h2⟩ := h.step w (.drainAll b false) trivial
  rw [hok] at h1
  obtain ⟨x, hx, h1⟩ := h1
  obtain ⟨⟨⟨lost, h3, h4⟩, h5⟩, h6⟩ := moves_one h.2 h1
  obtain rfl := h4 rfl
  have hm : p'.2 = [] := by
    rcases h5 with ⟨_, h5⟩ | rfl | ⟨rfl, _⟩
    · exact h5 hb
    · simp [Except.map] at hx
    · simp [Except.map] at hx
  refine ⟨p.1 ++ p.2, h.contents w, ?_, by rw [h2.ram.count, hm]; rfl⟩
  rw [h3, hm, List.nil_append, List.append_nil]
  exact Holds.contents_cf w (md := ⟨true, false, none, fun _ => True, false⟩) rfl rfl h2.flash

/-- An item that fits in RAM but not in a page cannot be drained, and nothing behind it either. It has to be popped,
or discarded by an `enqueue`. -/
theorem oversized_item_blocks_drain (w : g.WF) (h : BReached g cap q) (b : List Byte) (overwrite : Bool) (d : List Byte)
    (hd : q.ram.peekInto b.length = some d) (hbig : ¬ FitsPage g.word g.eraseSize d) :
    (bcall g (.drainOne b overwrite) q).1 = .error .itemTooBig ∧ (bcall g (.drainAll b overwrite) q).1 = .error .itemTooBig := by
  obtain ⟨p, h⟩ := h.good w
  rw [peekInto_oldest h.1.ram rfl] at hd
  have hm : ∃ m, p.2 = d :: m ∧ d.length ≤ b.length := by
    cases hp : p.2 with
    | nil => rw [hp] at hd; simp [oldest] at hd
    | cons x m =>
      rw [hp] at hd
      simp only [oldest] at hd
      by_cases hl : x.length ≤ b.length
      · rw [if_pos hl] at hd; obtain rfl := Option.some.inj hd; exact ⟨m, rfl, hl⟩
      · rw [if_neg hl] at hd; simp at hd
  obtain ⟨m, hm, hl⟩ := hm
  have hpush : ∀ {f f' : List (List Byte)} {a : Except Err QAnswer},
      queueStep (ρ := Cache K) g.word g.eraseSize g.pageCount f (.push d overwrite) a f' → a = .error .itemTooBig := by
    rintro f f' a (⟨_, h, _⟩ | ⟨h, _⟩ | ⟨h, _⟩)
    · exact h
    · exact absurd h hbig
    · exact absurd h hbig
  constructor
  · obtain ⟨p', ⟨x, hx, h1⟩, _⟩ := h.step w (.drainOne b overwrite) trivial
    rw [hm] at h1
    simp only [moveStep] at h1
    rw [if_pos hl] at h1
    obtain ⟨a, h2, h3⟩ := h1
    obtain rfl := hpush h2
    obtain ⟨rfl, _⟩ := h3
    exact hx
  · obtain ⟨p', ⟨x, hx, h1⟩, _⟩ := h.step w (.drainAll b overwrite) trivial
    rw [hm] at h1
    simp only [movesStep] at h1
    rw [if_pos hl] at h1
    obtain ⟨a, _, h2, h3⟩ := h1
    obtain rfl := hpush h2
    obtain ⟨rfl, _⟩ := h3
    exact hx

/-! ### When the flash fails -/

/-- The invariant with failures. -/
def BTorn (g : Geo) (D : List Byte → Prop) (cap : Nat) (q : BQ K) (p : Split) : Prop :=
  BHolds (Holds (torn D) g) (NoTorn D) cap q p

theorem BTorn.room {p : Split} (h : BTorn g D cap q p) : footprint p.2 ≤ cap := by
  have h1 := h.ram.used
  have h3 := h.ram.fits
  rw [h.cap, h1] at h3
  exact h3

/-- Power for a buffered queue. -/
def bpower (fuel : Option Nat) (q : BQ K) : BQ K := { q with st := powerFor fuel q.st }

theorem BTorn.power {p : Split} (h : BTorn g D cap q p) (fuel : Option Nat) : BTorn g D cap (bpower fuel q) p :=
  ⟨holds_power h.flash fuel, h.ram, h.cap, h.fine⟩

theorem BTorn.step (w : g.WF) (hD : NoMix g.word D) (hn : 2 ≤ g.pageCount) {p : Split} (h : BTorn g D cap q p) (c : BCall (Cache K))
    (hd : BDocumented g c) (ha : BData (NoTorn D) c) :
    ∃ p', splitStep (crashStep g.word g.eraseSize g.pageCount) cap p c (bcall g c q).1 p' ∧ BTorn g D cap (bcall g c q).2 p' :=
  bcall_sat (works_crash w K (torn_ok hD hn)) h c hd ha

theorem bpop_powered (b : List Byte) (hp : q.st.fl.fuel = none) :
    (bcall g (.pop b) q).1 ≠ .error .shutoff ∧ (bcall g (.pop b) q).2.st.fl.fuel = none := by
  obtain ⟨h1, h2⟩ := qcall_powered g (.pop b) q.st hp
  rw [qcall_pop_run] at h1 h2
  simp only [bcall, BQ.pop]
  revert h1 h2
  generalize Queue.pop g { q.st with buf := b } = r
  obtain ⟨r, s⟩ := r
  rcases r with e | (_ | d)
  · intro h1 h2
    exact ⟨fun h => h1 (by simp only [Except.map, Except.error.injEq] at h ⊢; exact h), h2⟩
  · intro h1 h2
    simp only
    cases q.ram.peekInto s.buf.length with
    | none => exact ⟨by simp [Except.map], h2⟩
    | some d => exact ⟨by simp [Except.map], h2⟩
  · intro h1 h2
    exact ⟨by simp [Except.map], h2⟩

theorem BTorn.contents (w : g.WF) (hD : NoMix g.word D) (hn : 2 ≤ g.pageCount) {p : Split} (h : BTorn g D cap q p)
    (hp : q.st.fl.fuel = none) : BContents g cap q (p.1 ++ p.2) := by
  refine BContents.of_step (fun q l => ∃ p, (BTorn g D cap q p ∧ q.st.fl.fuel = none) ∧ l = p.1 ++ p.2) ?_ ⟨p, ⟨h, hp⟩, rfl⟩
  rintro q l ⟨p, ⟨h, hp⟩, rfl⟩ b hb hb'
  obtain ⟨p', h1, h2⟩ := h.step w hD hn (.pop b) trivial trivial
  obtain ⟨h3, h4⟩ := bpop_powered (g := g) b hp
  obtain ⟨h5, _⟩ := split_torn (c := .pop b) h.room ⟨hb, hb'⟩ h1
  rcases h5 with ⟨h5, h6⟩ | ⟨h5, _⟩
  · exact ⟨h5, p', ⟨h2, h4⟩, h6.symm⟩
  · exact absurd h5 h3

/-- The states a buffered queue can get into when the flash may fail at any byte of every call. A `restart` among
the calls stands for a power loss, which also empties the RAM. -/
def BCrashReached (g : Geo) (D : List Byte → Prop) (cap : Nat) (q : BQ K) : Prop :=
  ∃ q0 cs, BStart g cap q0 ∧ (∀ c ∈ cs, BDocumented g c.1) ∧ (∀ c ∈ cs, BData (NoTorn D) c.1) ∧ q = (brunPower g cs q0).2

theorem BStart.torn (w : g.WF) (h : BStart g cap q) : BTorn g D cap q ([], []) := by
  refine ⟨⟨_, _, h.flash.qi w, rfl⟩, ?_, ?_, by simp⟩
  · rw [h.ram]; exact Ring.rep_new cap
  · rw [h.ram]; simp [Ring.new, Ring.cap]

theorem BCrashReached.torn (w : g.WF) (hD : NoMix g.word D) (hn : 2 ≤ g.pageCount) (h : BCrashReached g D cap q) : ∃ p, BTorn g D cap q p := by
  obtain ⟨q0, cs, h0, hd, ha, rfl⟩ := h
  obtain ⟨p, _, h2⟩ := brunPower_sat (works_crash w K (torn_ok hD hn)) (fun _ _ fuel h => holds_power h fuel) cs (h0.torn w) hd ha
  exact ⟨p, h2⟩

/-- C29, when the flash may fail at any byte of any call. The answers are still those of a single list, except that a
failing drain may leave its item in flash as well as in RAM (see `failed_drain_repeats_item`). Missing: a single page
and the data excluded by `NoTorn` and `NoMix`, as for the queue itself. -/
theorem buffered_with_failures_partial (w : g.WF) (hD : NoMix g.word D) (hn : 2 ≤ g.pageCount) (h : BStart g cap q)
    (cs : List (BCall (Cache K) × Option Nat)) (hd : ∀ c ∈ cs, BDocumented g c.1) (ha : ∀ c ∈ cs, BData (NoTorn D) c.1)
    (hb : ∀ c ∈ cs, LargeBuf g.eraseSize cap c.1) :
    ∃ l, Runs (oneQueueTorn cap) [] (cs.map (·.1)) (brunPower g cs q).1 l ∧ BContents g cap (bpower none (brunPower g cs q).2) l := by
  obtain ⟨p, h1, h2⟩ := brunPower_sat (works_crash w K (torn_ok hD hn)) (fun _ _ fuel h => holds_power h fuel) cs (h.torn w) hd ha
  obtain ⟨h3, _⟩ := Runs.image (step' := oneQueueTorn cap) (fun p : Split => p.1 ++ p.2) (fun p => footprint p.2 ≤ cap) (cs.map (·.1))
    (fun c hc q r q' hI hs => by
      obtain ⟨x, hx, rfl⟩ := List.mem_map.1 hc
      exact split_torn hI (hb x hx) hs) (h.torn (D := D) w).room h1
  exact ⟨_, h3, BTorn.contents w hD hn (BTorn.power h2 none) rfl⟩

/-- C29. A drain that fails, for whatever reason, loses nothing: afterwards the queue holds what it held before, or the
item that was being moved twice. Missing: as above. -/
theorem failed_drain_loses_nothing_partial (w : g.WF) (hD : NoMix g.word D) (hn : 2 ≤ g.pageCount) (h : BCrashReached g D cap q)
    (b : List Byte) (hb : g.eraseSize ≤ b.length ∧ cap ≤ b.length) (fuel : Option Nat) :
    ∃ l l', BContents g cap (bpower none q) l ∧
      BContents g cap (bpower none (bcall g (.drainOne b false) (bpower fuel q)).2) l' ∧
      (l' = l ∨ (bcall g (.drainOne b false) (bpower fuel q)).1 = .error .shutoff ∧ ∃ u d v, l = u ++ d :: v ∧ l' = u ++ d :: d :: v) := by
  obtain ⟨p, h⟩ := h.torn w hD hn
  obtain ⟨p', h1, h2⟩ := (h.power fuel).step w hD hn (.drainOne b false) trivial trivial
  obtain ⟨⟨⟨lost, kept, h3, h4, h5⟩, _⟩, _⟩ := split_torn (c := .drainOne b false) h.room hb h1
  obtain rfl := h4 rfl
  rw [List.nil_append] at h3
  refine ⟨_, _, BTorn.contents w hD hn (h.power none) rfl, BTorn.contents w hD hn (h2.power none) rfl, ?_⟩
  rw [h3]
  exact h5

/-- What a successful `drain_all` moved to flash is still there after a power loss, whatever happened before. -/
theorem drained_items_survive_partial (w : g.WF) (hD : NoMix g.word D) (hn : 2 ≤ g.pageCount) (h : BCrashReached g D cap q)
    (b : List Byte) (hb : cap ≤ b.length) (fuel : Option Nat)
    (hok : (bcall g (.drainAll b false) (bpower fuel q)).1 = .ok .done) (c : Cache K) (hc : FreshCache g.pageCount c) :
    ∃ l, BContents g cap (bpower none q) l ∧
      BContents g cap (bpower none (bcall g (.restart c) (bcall g (.drainAll b false) (bpower fuel q)).2).2) l := by
  obtain ⟨p, h⟩ := h.torn w hD hn
  obtain ⟨p', h1, h2⟩ := (h.power fuel).step w hD hn (.drainAll b false) trivial trivial
  rw [hok] at h1
  obtain ⟨x, hx, h1⟩ := h1
  obtain ⟨⟨⟨lost, kept, h3, h4, h5⟩, h6⟩, _⟩ := moves_torn hb h.room h1
  obtain rfl := h4 rfl
  have hm : x = .ok () ∧ p'.2 = [] := by
    rcases h6 with h6 | rfl | ⟨rfl, _⟩ | rfl
    · exact h6
    all_goals simp [Except.map] at hx
  obtain ⟨rfl, hm⟩ := hm
  obtain ⟨p'', h7, h8⟩ := h2.step w hD hn (.restart c) hc trivial
  obtain ⟨_, ⟨a, h9⟩, h10⟩ := h7
  obtain ⟨_, h9⟩ := h9
  refine ⟨p.1 ++ p.2, BTorn.contents w hD hn (h.power none) rfl, ?_⟩
  have h11 := BTorn.contents w hD hn (h8.power none) rfl
  rw [h10, h9, List.append_nil] at h11
  rcases h5 with h5 | ⟨h5, _⟩
  · rw [hm, List.append_nil] at h5
    rw [h3, List.nil_append, ← h5]
    exact h11
  · simp at h5

/-! ### Examples -/

/-- An empty buffered queue. -/
def bempty (cap : Nat) : BQ Unit := ⟨freshSt, Ring.new cap⟩

theorem bempty_start (g : Geo) (cap : Nat) : BStart g cap (bempty cap) := ⟨fresh_start g, rfl⟩

def buf100 : List Byte := List.replicate 100 0#8

/-- Three items, of which one is drained and one is refused, and a discarding `enqueue`. -/
def bcalls : List (BCall (Cache Unit)) :=
  [.enqueue item1 false, .enqueue item2 false, .enqueue item3 false, .drainOne buf100 false, .enqueue item3 false, .peek buf100,
    .enqueue item1 true, .status, .drainAll buf100 false]

theorem bcalls_ok : (∀ c ∈ bcalls, BDocumented geo8 c) ∧ ∀ c ∈ bcalls, LargeBuf 64 20 c := by
  constructor <;>
    (intro c hc
     simp only [bcalls, List.mem_cons, List.not_mem_nil, or_false] at hc
     rcases hc with rfl | rfl | rfl | rfl | rfl | rfl | rfl | rfl | rfl <;> first | trivial | exact ⟨by decide, by decide⟩)

example : ∃ l, Runs (oneQueue 20) [] bcalls (brun geo8 bcalls (bempty 20)).1 l ∧ BContents geo8 20 (brun geo8 bcalls (bempty 20)).2 l :=
  buffered_is_one_queue geo8_wf (bempty_start _ _) bcalls bcalls_ok.1 bcalls_ok.2

theorem bcalls_answers : (brun geo8 bcalls (bempty 20)).1 =
    [.ok (.accepted true), .ok (.accepted true), .ok (.accepted false), .ok (.drained true), .ok (.accepted true),
      .ok (.item (some item1)), .ok (.accepted true), .ok (.status 1 12 8), .ok .done] := by decide +kernel

example : ∃ p, Runs (splitStep (queueStep 8 64 2) 20) ([], []) bcalls (brun geo8 bcalls (bempty 20)).1 p ∧
    Contents geo8 (brun geo8 bcalls (bempty 20)).2.st p.1 ∧ (brun geo8 bcalls (bempty 20)).2.ram.count = p.2.length :=
  buffered_splits geo8_wf (bempty_start _ _) bcalls bcalls_ok.1

/-- One item in flash and one in RAM. -/
def bsplit : List (BCall (Cache Unit)) := [.enqueue item1 false, .drainOne buf100 false, .enqueue item2 false]

def bhalf : BQ Unit := (brun geo8 bsplit (bempty 100)).2

theorem bhalf_reached : BReached geo8 100 bhalf :=
  ⟨bempty 100, bsplit, bempty_start _ _, by
    intro c hc
    simp only [bsplit, List.mem_cons, List.not_mem_nil, or_false] at hc
    rcases hc with rfl | rfl | rfl <;> trivial, rfl⟩

example : ∃ l, BContents geo8 100 bhalf l ∧ BContents geo8 100 (bcall geo8 (.drainOne [0#8] false) bhalf).2 l ∧
    BContents geo8 100 (bcall geo8 (.drainAll [0#8] false) bhalf).2 l :=
  drain_keeps_contents geo8_wf bhalf_reached [0#8]

example : ∃ l, BContents geo8 100 bhalf l ∧ Contents geo8 (bcall geo8 (.drainAll buf100 false) bhalf).2.st l ∧
    (bcall geo8 (.drainAll buf100 false) bhalf).2.ram.count = 0 :=
  drain_all_empties_ram geo8_wf bhalf_reached buf100 (by decide) (by decide +kernel)

/-- An item of fifty bytes does not fit in a page of 64 bytes. -/
def bbig : List (BCall (Cache Unit)) := [.enqueue (List.replicate 50 1#8) false, .enqueue item2 false]

theorem bbig_reached : BReached geo8 100 (brun geo8 bbig (bempty 100)).2 :=
  ⟨bempty 100, bbig, bempty_start _ _, by
    intro c hc
    simp only [bbig, List.mem_cons, List.not_mem_nil, or_false] at hc
    rcases hc with rfl | rfl <;> trivial, rfl⟩

example : (bcall geo8 (.drainOne buf100 true) (brun geo8 bbig (bempty 100)).2).1 = .error .itemTooBig ∧
    (bcall geo8 (.drainAll buf100 true) (brun geo8 bbig (bempty 100)).2).1 = .error .itemTooBig :=
  oversized_item_blocks_drain geo8_wf bbig_reached buf100 true (List.replicate 50 1#8) (by decide +kernel) (by unfold FitsPage; decide)

/-- Drains, with a failure in the middle of an item and one in the middle of a marker, and a power loss. -/
def bcrashCalls : List (BCall (Cache Unit) × Option Nat) :=
  [(.enqueue item1 false, none), (.drainOne buf100 false, some 13), (.enqueue item2 false, none), (.drainAll buf100 false, none),
    (.enqueue item3 false, none), (.drainAll buf100 true, some 3), (.pop buf100, none), (.restart noCache, none), (.enqueue item3 false, none)]

theorem bcrashCalls_ok : (∀ c ∈ bcrashCalls, BDocumented geo8 c.1) ∧ (∀ c ∈ bcrashCalls, BData (NoTorn anyData) c.1) ∧
    ∀ c ∈ bcrashCalls, LargeBuf 64 100 c.1 := by
  refine ⟨?_, ?_, ?_⟩ <;>
    (intro c hc
     simp only [bcrashCalls, List.mem_cons, List.not_mem_nil, or_false] at hc
     rcases hc with rfl | rfl | rfl | rfl | rfl | rfl | rfl | rfl | rfl <;>
       first | trivial | exact ⟨by decide, by decide⟩ | exact item1_tear | exact item2_tear | exact item3_tear | exact noCache_fresh _)

example : ∃ l, Runs (oneQueueTorn 100) [] (bcrashCalls.map (·.1)) (brunPower geo8 bcrashCalls (bempty 100)).1 l ∧
    BContents geo8 100 (bpower none (brunPower geo8 bcrashCalls (bempty 100)).2) l :=
  buffered_with_failures_partial geo8_wf geo8_mix (by decide) (bempty_start _ _) bcrashCalls bcrashCalls_ok.1 bcrashCalls_ok.2.1
    bcrashCalls_ok.2.2

theorem bcrash_answers : (brunPower geo8 bcrashCalls (bempty 100)).1 =
    [.ok (.accepted true), .error .shutoff, .ok (.accepted true), .ok .done, .ok (.accepted true), .error .shutoff,
      .ok (.item (some item1)), .ok .done, .ok (.accepted true)] := by decide +kernel

def bcrashed : BQ Unit := (brunPower geo8 bcrashCalls (bempty 100)).2

theorem bcrashed_reached : BCrashReached geo8 anyData 100 bcrashed :=
  ⟨bempty 100, bcrashCalls, bempty_start _ _, bcrashCalls_ok.1, bcrashCalls_ok.2.1, rfl⟩

example : ∃ l l', BContents geo8 100 (bpower none bcrashed) l ∧
      BContents geo8 100 (bpower none (bcall geo8 (.drainOne buf100 false) (bpower (some 9) bcrashed)).2) l' ∧
      (l' = l ∨ (bcall geo8 (.drainOne buf100 false) (bpower (some 9) bcrashed)).1 = .error .shutoff ∧
        ∃ u d v, l = u ++ d :: v ∧ l' = u ++ d :: d :: v) :=
  failed_drain_loses_nothing_partial geo8_wf geo8_mix (by decide) bcrashed_reached buf100 ⟨by decide, by decide⟩ (some 9)

example : ∃ l, BContents geo8 100 (bpower none bcrashed) l ∧
      BContents geo8 100 (bpower none (bcall geo8 (.restart noCache) (bcall geo8 (.drainAll buf100 false) (bpower none bcrashed)).2).2) l :=
  drained_items_survive_partial geo8_wf geo8_mix (by decide) bcrashed_reached buf100 (by decide) none (by decide +kernel) noCache
    (noCache_fresh _)

/-! ### What a caller might not expect -/

/-- With a buffer that is too small for the oldest item in RAM, `pop` and `peek` answer `Ok(None)`, `drain_one` answers
`Ok(false)`, which is documented to mean that the ring is empty, and `drain_all` answers `Ok(())`. -/
theorem small_buffer_looks_empty :
    (brun geo8 [.enqueue item2 false, .pop [0#8], .peek [0#8], .drainOne [0#8] false, .drainAll [0#8] false, .status] (bempty 20)).1 =
      [.ok (.accepted true), .ok (.item none), .ok (.item none), .ok (.drained false), .ok .done, .ok (.status 1 4 16)] := by
  decide +kernel

/-- When the flash fails after the last byte of an item that matters (here the data ends in `0xff`), the item is in flash
although `drain_one` failed, and trying again stores it once more. -/
theorem failed_drain_repeats_item :
    (brunPower geo8 [(.enqueue [1#8, 2#8, 255#8] false, none), (.drainOne buf100 false, some 18), (.drainOne buf100 false, none),
        (.pop buf100, none), (.pop buf100, none)] (bempty 20)).1 =
      [.ok (.accepted true), .error .shutoff, .ok (.drained true), .ok (.item (some [1#8, 2#8, 255#8])),
        .ok (.item (some [1#8, 2#8, 255#8]))] := by
  decide +kernel

/-- An `enqueue` that discards the oldest item in RAM leaves the older items in flash alone, so it is not the oldest item
of the queue that is lost. -/
theorem discard_loses_from_the_middle :
    (brun geo8 [.enqueue item1 false, .drainOne buf100 false, .enqueue item2 false, .enqueue item3 true, .pop buf100, .pop buf100,
        .pop buf100] (bempty 14)).1 =
      [.ok (.accepted true), .ok (.drained true), .ok (.accepted true), .ok (.accepted true), .ok (.item (some item1)),
        .ok (.item (some item3)), .ok (.item none)] := by
  decide +kernel

end SeqStorage.Props
