import Verif.Proofs.QueueRun
import Verif.Proofs.Dirty
/-
What can be observed of a queue.
-/

set_option linter.unusedSectionVars false

namespace SeqStorage
open M Spec

variable {K : Type} [DecidableEq K] {α β : Type}
variable {md : Mode} {g : Geo} {σ σ' : Shape} {P P' : Nat → PK}

/-- A queue on an erased region with a new cache and a reliable power supply. -/
structure Start (g : Geo) (s : St K) : Prop where
  flash : Erased g s.fl
  power : s.fl.fuel = none
  cache : FreshCache g.pageCount s.cache

/-- The states a queue can get into without power loss. -/
def Reached (g : Geo) (s : St K) : Prop :=
  ∃ s0 cs, Start g s0 ∧ (∀ c ∈ cs, Documented g c) ∧ s = (qrun g cs s0).2

/-- Popping with buffers of a page's size gives the items `q` and then nothing. -/
def Contents (g : Geo) (s : St K) (q : List (List Byte)) : Prop :=
  ∀ b, g.eraseSize ≤ b.length → ∀ k,
    (qrun g (List.replicate k (.pop b)) s).1 = (List.range k).map fun i => .ok (.item q[i]?)

theorem Contents.unique {s : St K} {q q' : List (List Byte)} (h : Contents g s q) (h' : Contents g s q') : q = q' := by
  apply List.ext_getElem?
  intro i
  have h1 := h (List.replicate g.eraseSize 0#8) (by simp) (i + 1)
  rw [h' (List.replicate g.eraseSize 0#8) (by simp) (i + 1)] at h1
  have h2 := congrArg (fun l => l[i]?) h1
  simp at h2
  exact h2.symm

theorem Contents.of_step (Inv : St K → List (List Byte) → Prop)
    (hstep : ∀ s q, Inv s q → ∀ b, g.eraseSize ≤ b.length →
      (qcall g (.pop b) s).1 = .ok (.item q.head?) ∧ Inv (qcall g (.pop b) s).2 q.tail)
    {s : St K} {q : List (List Byte)} (h : Inv s q) : Contents g s q := by
  intro b hb k
  induction k generalizing s q with
  | zero => rfl
  | succ k ih =>
    obtain ⟨h1, h2⟩ := hstep s q h b hb
    rw [List.replicate_succ, List.range_succ_eq_map]
    simp only [qrun, h1, ih h2, List.map_cons, List.map_map]
    congr 1
    · simp [List.head?_eq_getElem?]
    · apply List.map_congr_left
      intro i _
      simp

theorem le_sum {l : List Nat} {x : Nat} (h : x ∈ l) : x ≤ l.sum := by
  induction l with
  | nil => simp at h
  | cons y l ih =>
    rw [List.sum_cons]
    rcases List.mem_cons.1 h with rfl | h
    · omega
    · have := ih h; omega

section
variable (w : g.WF)
include w

theorem QI.item_le {s : St K} (h : QI md g s σ P) {d : List Byte} (hd : d ∈ content g.pageCount σ P) :
    pad g.word d.length + pad g.word 8 + 2 * g.word ≤ g.eraseSize := by
  unfold content seg at hd
  obtain ⟨j, hj, hd⟩ := List.mem_flatMap.1 hd
  have hj' : j < g.pageCount := by
    have := h.fs.wf.m_le
    simp at hj; omega
  have hp := page_sum w (h.fs.pages _ (ringPage_lt h.fs.wf.o_lt hj'))
  have h1 := le_sum (List.mem_map.2 ⟨d, hd, rfl⟩ : foot g d ∈ _)
  have h2 := pageSize_add w
  rw [pad_eq, pad_eq]
  have : g.roundUp 8 = g.hl := rfl
  have h3 : foot g d = g.hl + g.roundUp d.length := rfl
  omega

theorem Holds.contents_cf {s : St K} {q : List (List Byte)} (hcf : md.cf = true) (hnp : md.np = false)
    (h : Holds md g s q) (hdm : md.dmg = false := by rfl) : Contents g s q := by
  refine Contents.of_step (fun s q => Holds md g s q) ?_ h
  rintro s q ⟨σ, P, h, rfl⟩ b hb
  obtain ⟨σ', P', h1, _, h3⟩ := qcall_det w hcf h (.pop b) trivial (by rw [hnp]; simp) hdm
  simp only [queueStep] at h3
  have hle := fun d hd => h.item_le w (d := d) hd
  cases hq : content g.pageCount σ P with
  | nil =>
    rw [hq] at h3
    exact ⟨h3.1, σ', P', h1, h3.2⟩
  | cons d rest =>
    rw [hq] at h3 hle
    have := hle d (by simp)
    simp only at h3
    rw [if_pos (by omega)] at h3
    exact ⟨h3.1, σ', P', h1, h3.2⟩

theorem Holds.contents_crash {s : St K} {q : List (List Byte)} (hcf : md.cf = false) (hnp : md.np = false) (hmd : md.OK g)
    (hp : s.fl.fuel = none) (h : Holds md g s q) : Contents g s q := by
  refine Contents.of_step (fun s q => Holds md g s q ∧ s.fl.fuel = none) ?_ ⟨h, hp⟩
  rintro s q ⟨h, hp⟩ b hb
  obtain ⟨hns, hp'⟩ := qcall_powered g (.pop b) s hp
  obtain ⟨q', hs, h'⟩ := qcall_crash w hcf hnp hmd h (.pop b) trivial trivial
  simp only [crashStep] at hs
  rcases hs with ⟨rfl, hr, rfl⟩ | ⟨d, rfl, hr, _⟩ | ⟨n, h1, h2, _⟩ | ⟨hr, _⟩
  · exact ⟨hr, h', hp'⟩
  · exact ⟨hr, h', hp'⟩
  · omega
  · exact absurd hr hns

theorem Start.qi {s : St K} (h : Start g s) (hl : md.lim = none := by rfl) : QI md g s .initial (fun _ => .blank) :=
  QI.erased w h.flash (fun _ => h.power) h.cache hl

omit w in
theorem content_initial (n : Nat) : content n .initial (fun _ => .blank) = [] := rfl

theorem Reached.qi {s : St K} (h : Reached g s) : ∃ σ P, QI ⟨true, false, none, fun _ => True, false⟩ g s σ P := by
  obtain ⟨s0, cs, h0, hd, rfl⟩ := h
  obtain ⟨σ, P, _, h, _⟩ := qrun_det w (md := ⟨true, false, none, fun _ => True, false⟩) rfl cs (h0.qi w) hd (by simp)
  exact ⟨σ, P, h⟩

theorem QI.contents {s : St K} (h : QI ⟨true, false, none, fun _ => True, false⟩ g s σ P) : Contents g s (content g.pageCount σ P) :=
  Holds.contents_cf w (md := ⟨true, false, none, fun _ => True, false⟩) rfl rfl ⟨σ, P, h, rfl⟩

end

/-! ### Concrete states, used for witnesses -/

/-- A chip full of ones, with nothing cached. -/
def freshSt : St Unit :=
  ⟨⟨fun _ => 0xff#8, none, [], fun _ => 0, fun _ => 0, 0, 0⟩, noCache, List.replicate 32 0#8, ⟨.address 0, .allPopped, 0⟩,
    ⟨0, 0, 0, 0⟩⟩

/-- The same with everything cached. -/
def cachedSt (n : Nat) : St Unit :=
  { freshSt with cache := ⟨false, .table (List.replicate n none), .tracked (List.replicate n none) (List.replicate n none),
      .tracked (List.replicate 2 none)⟩ }

theorem fresh_start (g : Geo) : Start g freshSt :=
  ⟨⟨fun _ _ _ => rfl, rfl, fun _ => rfl, fun _ => rfl, rfl, rfl⟩, rfl, noCache_fresh _⟩

theorem cached_start (g : Geo) : Start g (cachedSt g.pageCount) :=
  ⟨⟨fun _ _ _ => rfl, rfl, fun _ => rfl, fun _ => rfl, rfl, rfl⟩, rfl,
    ⟨rfl, Or.inr (Or.inr rfl), Or.inr rfl, Or.inr ⟨2, rfl⟩⟩⟩

theorem fresh_reached {g : Geo} (cs : List (QCall (Cache Unit))) (h : ∀ c ∈ cs, Documented g c) :
    Reached g (qrun g cs freshSt).2 := ⟨_, cs, fresh_start g, h, rfl⟩

/-- One page, and two pages, of 32 bytes. -/
def geo1 : Geo := ⟨1, 4, 32, 0, 32⟩
def geo2 : Geo := ⟨1, 4, 32, 0, 64⟩

theorem geo1_wf : geo1.WF := by constructor <;> decide
theorem geo2_wf : geo2.WF := by constructor <;> decide

def buf32 : List Byte := List.replicate 32 0#8

/-- Two pages with three items, each page full or nearly so. -/
def calls2 : List (QCall (Cache Unit)) :=
  [.push [1#8, 2#8, 3#8] false, .push [4#8] false, .push [5#8, 6#8, 7#8, 8#8, 9#8] false]

def st2 : St Unit := (qrun geo2 calls2 freshSt).2

theorem st2_reached : Reached geo2 st2 := by
  refine fresh_reached calls2 ?_
  intro c hc
  simp only [calls2, List.mem_cons, List.not_mem_nil, or_false] at hc
  rcases hc with rfl | rfl | rfl <;> trivial

/-- A single page. -/
def st1 : St Unit := (qrun geo1 [.push [1#8, 2#8, 3#8] false] freshSt).2

theorem st1_reached : Reached geo1 st1 :=
  fresh_reached _ (by intro c hc; simp only [List.mem_singleton] at hc; subst hc; trivial)

end SeqStorage
