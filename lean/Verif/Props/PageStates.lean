import Verif.Proofs.Shape
/-
C19: the calculated page state cache never says anything false and never panics.

The specification is the ring of pages in Spec/PageRing.lean. Each step of the ring lists what the
storage code tells the cache on the way.
-/

namespace SeqStorage

/-- What the storage does with the cache. `ask`: `get_page_state_cached`, which reports the state it
read from flash only if the cache does not know it (/repo/src/lib.rs 170-193). `tell`:
`notice_page_state` before a page is changed. `reset`: `invalidate_cache_state`. -/
inductive PSCmd where
  | ask (i : Nat) (s : PageState)
  | tell (i : Nat) (s : PageState)
  | reset

/-- The effect on the cache; a panic is an error. -/
def PSCmd.run (c : CalcPS) : PSCmd → Except Err CalcPS
  | .ask i s => match c.get i with
    | some _ => .ok c
    | none => c.notice i s
  | .tell i s => c.notice i s
  | .reset => .ok (CalcPS.new c.pageCount)

/-- The effect of several commands. -/
def PSCmd.runAll (c : CalcPS) : List PSCmd → Except Err CalcPS
  | [] => .ok c
  | x :: xs => match PSCmd.run c x with
    | .ok c' => runAll c' xs
    | .error e => .error e

/-- The steps the storage takes with its pages, and what it does with the cache meanwhile. -/
inductive RingStep (n : Nat) : Shape → List PSCmd → Shape → Prop
  /-- Looking at any page. -/
  | look {σ : Shape} {i : Nat} {s : PageState} (hi : i < n) (h : σ.st n i = .ok s) : RingStep n σ [.ask i s] σ
  /-- `partial_close_page` on the page to be written to. -/
  | openFront {σ : Shape} (hp : σ.part = false) (h : σ.st n (σ.front n) = .ok .open) :
      RingStep n σ [.ask (σ.front n) .open, .tell (σ.front n) .partialOpen] σ.openFront
  /-- `close_page` on the page that is written to, after looking at the next page, which is open. -/
  | closeFront {σ : Shape} (hp : σ.part = true) (h : σ.st n ((σ.front n + 1) % n) = .ok .open) :
      RingStep n σ [.ask (σ.front n) .partialOpen, .ask ((σ.front n + 1) % n) .open, .tell (σ.front n) .closed]
        σ.closeFront
  /-- `open_page` on the oldest page. -/
  | dropOldest {σ : Shape} (hc : σ.corr = false) (hm : 2 ≤ σ.m) :
      RingStep n σ [.tell σ.o .open] (σ.dropOldest n)
  /-- `open_page` on the only page there is. -/
  | dropOnly {σ : Shape} (hn : n = 1) (hm : σ.m = 1) : RingStep n σ [.tell 0 .open] σ.dropOnly
  /-- The power failed, whatever that did to the pages; the cache is found dirty. -/
  | restart {σ σ' : Shape} (w : σ'.WF n) : RingStep n σ [.reset] σ'
  /-- Repair of a half erased page. -/
  | fixCorr {σ : Shape} (hc : σ.corr = true) :
      RingStep n σ [.reset, .tell (ringPage n σ.o (n - 1)) .open] σ.fixCorr
  /-- Repair of a map after an interrupted migration. -/
  | dropFront {σ : Shape} (hp : σ.part = true) (hm : 2 ≤ σ.m) :
      RingStep n σ [.reset, .tell (σ.front n) .open] σ.dropFront

/-- Any number of steps. -/
inductive RingRun (n : Nat) : Shape → List PSCmd → Shape → Prop
  | refl {σ : Shape} : RingRun n σ [] σ
  | step {σ σ' σ'' : Shape} {a b : List PSCmd} (r : RingRun n σ a σ') (s : RingStep n σ' b σ'') :
      RingRun n σ (a ++ b) σ''

namespace PSCmd

theorem runAll_append (c : CalcPS) (a b : List PSCmd) :
    runAll c (a ++ b) = match runAll c a with
      | .ok c' => runAll c' b
      | .error e => .error e := by
  induction a generalizing c with
  | nil => rfl
  | cons x xs ih =>
    simp only [List.cons_append, runAll]
    cases run c x with
    | ok c' => exact ih c'
    | error e => rfl

theorem run_ask {σ : Shape} {n i : Nat} {c : CalcPS} {s : PageState} (w : σ.WF n) (h : CalcOk σ n c) (hi : i < n)
    (hs : σ.st n i = .ok s) :
    ∃ c', run c (.ask i s) = .ok c' ∧ CalcOk σ n c' ∧ (s = .partialOpen → Anchored i (.calculated c')) ∧
      (∀ a, Anchored a (.calculated c) → Anchored a (.calculated c') ∧ Knows i s (.calculated c')) := by
  have h0 : PSOk σ n (.calculated c) := h
  rcases h0.get w hi with hg | ⟨s', hg, hs', hk, ha⟩
  · simp only [PSCache.get, Except.ok.injEq] at hg
    obtain ⟨c', h1, h2, h3, h4⟩ := h0.see w hi hs
    cases c' with
    | calculated c' =>
      simp only [PSCache.notice] at h1
      cases hn : c.notice i s with
      | error e => rw [hn] at h1; simp [Except.map] at h1
      | ok c'' =>
        rw [hn] at h1
        simp only [Except.map, Except.ok.injEq, PSCache.calculated.injEq] at h1
        subst h1
        exact ⟨c'', by simp only [run, hg, hn], h2, h3, h4⟩
    | uncached => simp only [PSCache.notice] at h1; cases hn : c.notice i s <;> simp [hn, Except.map] at h1
    | table l => simp only [PSCache.notice] at h1; cases hn : c.notice i s <;> simp [hn, Except.map] at h1
  · simp only [PSCache.get, Except.ok.injEq] at hg
    rw [hs] at hs'
    cases hs'
    exact ⟨c, by simp only [run, hg], h, ha, fun a h => ⟨h, hk⟩⟩

end PSCmd

theorem RingStep.wf {n : Nat} {σ σ' : Shape} {cs : List PSCmd} (hn : 0 < n) (w : σ.WF n) (s : RingStep n σ cs σ') :
    σ'.WF n := by
  cases s with
  | look hi h => exact w
  | openFront hp h => exact CalcOk.openFront_wf w hp h
  | closeFront hp h =>
    apply CalcOk.closeFront_wf w hp
    rcases Nat.lt_or_ge σ.m n with h' | h'
    · exact h'
    · exfalso
      have := w.m_le
      rw [Shape.st_open] at h
      have := ringPos_lt w.o_lt (Nat.mod_lt (σ.front n + 1) hn)
      omega
  | dropOldest hc hm => exact CalcOk.dropOldest_wf w hm
  | dropOnly hn hm => subst hn; constructor <;> simp [Shape.dropOnly]
  | restart w' => exact w'
  | fixCorr hc =>
    refine ⟨w.o_lt, w.m_le, w.part_pos, fun h => ⟨(w.full h).1, rfl⟩, fun h => ⟨(w.empty h).1, rfl⟩⟩
  | dropFront hp hm =>
    have := w.m_le
    refine ⟨w.o_lt, ?_, ?_, ?_, ?_⟩ <;> simp only [Shape.dropFront] <;> (try omega)

theorem RingStep.sound {n : Nat} {σ σ' : Shape} {cs : List PSCmd} {c : CalcPS} (hn : 0 < n) (w : σ.WF n)
    (h : CalcOk σ n c) (s : RingStep n σ cs σ') : ∃ c', PSCmd.runAll c cs = .ok c' ∧ CalcOk σ' n c' := by
  have hpc : c.pageCount = n := by cases h <;> rfl
  have hfl := Shape.front_lt w
  cases s with
  | look hi hs =>
    obtain ⟨c', h1, h2, _⟩ := PSCmd.run_ask w h hi hs
    exact ⟨c', by simp only [PSCmd.runAll, h1], h2⟩
  | openFront hp hs =>
    obtain ⟨c1, h1, h2, _⟩ := PSCmd.run_ask w h hfl hs
    obtain ⟨c2, h3, h4, _⟩ := CalcOk.openFront w h2 hp
    exact ⟨c2, by simp only [PSCmd.runAll, h1]; simp only [PSCmd.run, h3], h4⟩
  | closeFront hp hs =>
    have hnl : (σ.front n + 1) % n < n := Nat.mod_lt _ hn
    have hm : σ.m < n := by
      have := w.m_le
      rw [Shape.st_open] at hs
      have := ringPos_lt w.o_lt hnl
      omega
    have hsf : σ.st n (σ.front n) = .ok .partialOpen := by
      have := CalcOk.st_front w (fun h => by rw [hp] at h; simp at h)
      rw [hp] at this; exact this
    obtain ⟨c1, h1, h2, h3, _⟩ := PSCmd.run_ask w h hfl hsf
    obtain ⟨c2, h4, h5, _, h6⟩ := PSCmd.run_ask w h2 hnl hs
    have ha := h6 _ (h3 rfl)
    obtain ⟨c3, h7, h8⟩ := CalcOk.closeFront w h5 hp hm ha.1.1 ha.1.2 ha.2
    exact ⟨c3, by simp only [PSCmd.runAll, h1, h4]; simp only [PSCmd.run, h7], h8⟩
  | dropOldest hc hm =>
    obtain ⟨c1, h1, h2, _⟩ := CalcOk.dropOldest w h hc hm
    exact ⟨c1, by simp only [PSCmd.runAll, PSCmd.run, h1], h2⟩
  | dropOnly hn1 hm =>
    subst hn1
    obtain ⟨c1, h1, h2, _⟩ := CalcOk.dropOnly h w hm
    exact ⟨c1, by simp only [PSCmd.runAll, PSCmd.run, h1], h2⟩
  | restart w' => exact ⟨CalcPS.new n, by simp only [PSCmd.runAll, PSCmd.run, hpc], .fresh⟩
  | fixCorr hc =>
    have hpl := ringPage_lt w.o_lt (show n - 1 < n by omega)
    have hpp := ringPos_page w.o_lt (show n - 1 < n by omega)
    obtain ⟨c1, h1, h2⟩ := CalcOk.freshOpen (σ := σ.fixCorr) hpl (by
      rw [Shape.st_open]
      refine ⟨?_, by simp [Shape.fixCorr]⟩
      simp only [Shape.fixCorr]
      rw [hpp]
      have := w.m_le
      have := w.full
      by_cases he : σ.m = n
      · have := (w.full he).2; rw [hc] at this; simp at this
      · omega)
    exact ⟨c1, by simp only [PSCmd.runAll, PSCmd.run, hpc, h1], h2⟩
  | dropFront hp hm =>
    have hfp := CalcOk.front_pos w
    rw [hp, if_pos rfl] at hfp
    obtain ⟨c1, h1, h2⟩ := CalcOk.freshOpen (σ := σ.dropFront) hfl (by
      rw [Shape.st_open]
      simp only [Shape.dropFront]
      rw [hfp]
      refine ⟨Nat.le_refl _, ?_⟩
      rintro ⟨hc, he⟩
      have := (w.full (by omega)).2
      rw [hc] at this; simp at this)
    exact ⟨c1, by simp only [PSCmd.runAll, PSCmd.run, hpc, h1], h2⟩

/-- **C19.** Whatever the pages go through, what the calculated page state cache says about a page is
true, and telling it about the pages never makes it panic. -/
theorem calculated_cache_sound {n : Nat} (hn : 0 < n) {σ₀ σ : Shape} (w : σ₀.WF n) {cmds : List PSCmd}
    (r : RingRun n σ₀ cmds σ) :
    ∃ c, PSCmd.runAll (CalcPS.new n) cmds = .ok c ∧ ∀ i s, i < n → c.get i = some s → σ.st n i = .ok s := by
  have key : σ.WF n ∧ ∃ c, PSCmd.runAll (CalcPS.new n) cmds = .ok c ∧ CalcOk σ n c := by
    induction r with
    | refl => exact ⟨w, _, rfl, .fresh⟩
    | step r s ih =>
      obtain ⟨w', c, h1, h2⟩ := ih
      obtain ⟨c', h3, h4⟩ := s.sound hn w' h2
      exact ⟨s.wf hn w', c', by rw [PSCmd.runAll_append, h1]; exact h3, h4⟩
  obtain ⟨w', c, h1, h2⟩ := key
  exact ⟨c, h1, fun i s hi hg => h2.get_sound w' hi hg⟩

/-- A run around a ring of three pages: fill two pages, look at the third, close the second, start
the third, recycle the first. -/
example : ∃ cmds, RingRun 3 .initial cmds ⟨1, 2, true, false, 1⟩ ∧ cmds.length = 13 ∧
    ∃ c, PSCmd.runAll (CalcPS.new 3) cmds = .ok c ∧ c.get 1 = some .closed ∧ c.get 2 = some .partialOpen ∧
      c.get 0 = some .open := by
  have r0 : RingRun 3 .initial [] .initial := .refl
  have r1 := r0.step (.openFront (n := 3) (σ := .initial) (by decide) (by decide))
  have r2 := r1.step (.closeFront (n := 3) (by decide) (by decide))
  have r3 := r2.step (.openFront (n := 3) (by decide) (by decide))
  have r4 := r3.step (.closeFront (n := 3) (by decide) (by decide))
  have r5 := r4.step (.openFront (n := 3) (by decide) (by decide))
  have r6 := r5.step (.dropOldest (n := 3) (by decide) (by decide))
  exact ⟨_, r6, by decide, ⟨3, some 2, true, false, 1, 2⟩, by decide, by decide, by decide, by decide⟩

end SeqStorage
