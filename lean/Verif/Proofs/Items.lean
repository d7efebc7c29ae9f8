import Verif.Proofs.Steps
/-
Writing and removing items, and the general repair.
-/

set_option linter.unusedSectionVars false

namespace SeqStorage
open M

variable {K : Type} [DecidableEq K] {α β : Type}
variable {md : Mode} {g : Geo} {σ σ' : Shape} {P P' : Nat → PK}

theorem PPCache.noticeWritten_after {c : PPCache} {i next : Nat} (hn : next ≠ 0)
    (ho : ∀ p, c.afterWritten i = some p → p < next) (j : Nat) :
    (c.noticeWritten i next).afterErased j = c.afterErased j ∧
    (j ≠ i → (c.noticeWritten i next).afterWritten j = c.afterWritten j) ∧
    (∀ p, (c.noticeWritten i next).afterWritten i = some p → p = next) := by
  cases c with
  | uncached => simp [PPCache.noticeWritten, PPCache.afterErased, PPCache.afterWritten]
  | tracked e w =>
    have hset : ∀ p, ((w.set i (PPCache.nonZero next))[i]?).join = some p → p = next := by
      intro p hp
      rw [List.getElem?_set] at hp
      simp only [if_true] at hp
      split at hp
      · simp [PPCache.nonZero, hn] at hp; exact hp.symm
      · simp at hp
    have hother : j ≠ i → ((w.set i (PPCache.nonZero next))[j]?).join = (w[j]?).join := by
      intro hj; rw [List.getElem?_set, if_neg (Ne.symm hj)]
    simp only [PPCache.noticeWritten]
    split
    · rename_i old hold
      have := ho old hold
      rw [if_neg (by omega)]
      exact ⟨rfl, hother, hset⟩
    · exact ⟨rfl, hother, hset⟩

theorem PPCache.noticeErased_after {c : PPCache} {i d a next : Nat} (hn : next ≠ 0) (j : Nat) :
    (c.noticeErased i d a next).afterWritten j = c.afterWritten j ∧
    (j ≠ i → (c.noticeErased i d a next).afterErased j = c.afterErased j) ∧
    (∀ p, (c.noticeErased i d a next).afterErased i = some p → c.afterErased i = some p ∨
      (p = next ∧ a = (c.afterErased i).getD d)) := by
  cases c with
  | uncached => simp [PPCache.noticeErased, PPCache.afterErased, PPCache.afterWritten]
  | tracked e w =>
    simp only [PPCache.noticeErased]
    split
    · rename_i h
      refine ⟨rfl, ?_, ?_⟩
      · intro hj; simp only [PPCache.afterErased]; rw [List.getElem?_set, if_neg (Ne.symm hj)]
      · intro p hp
        right
        refine ⟨?_, h⟩
        simp only [PPCache.afterErased] at hp
        rw [List.getElem?_set] at hp
        simp only [if_true] at hp
        split at hp
        · simp [PPCache.nonZero, hn] at hp; exact hp.symm
        · simp at hp
    · exact ⟨rfl, fun _ => rfl, fun p hp => Or.inl hp⟩

/-- An erased prefix of the items ends before an item that is not erased. -/
theorem split_erased {pre post pre' post' : List It} {it it' : It}
    (h : pre ++ it :: post = pre' ++ it' :: post') (h0 : ∀ x ∈ pre' ++ [it'], x.hdr.crc = 0#32)
    (hc : it.hdr.crc ≠ 0#32) : ∃ mid, pre = pre' ++ it' :: mid ∧ post' = mid ++ it :: post := by
  induction pre' generalizing pre with
  | nil =>
    cases pre with
    | nil =>
      simp only [List.nil_append, List.cons.injEq] at h
      exact absurd (h0 it' (by simp)) (by rw [← h.1]; exact hc)
    | cons x pre =>
      simp only [List.nil_append, List.cons_append, List.cons.injEq] at h
      exact ⟨pre, by simp [h.1], h.2.symm⟩
  | cons y pre' ih =>
    cases pre with
    | nil =>
      simp only [List.nil_append, List.cons_append, List.cons.injEq] at h
      exact absurd (h0 y (by simp)) (by rw [← h.1]; exact hc)
    | cons x pre =>
      simp only [List.cons_append, List.cons.injEq] at h
      obtain ⟨mid, h1, h2⟩ := ih h.2 (fun x hx => h0 x (by simp at hx ⊢; right; exact hx))
      exact ⟨mid, by rw [h.1, h1]; rfl, h2⟩

variable (w : g.WF)
include w

/-- Writing an item at the free address of a partially open page. -/
theorem writeItem {s : St K} (h : Good md g s σ P) (hmd : md.OK g) {i : Nat} (hi : i < g.pageCount) {its : List It}
    {f : Nat} (hpk : P i = .used false its f) {hd : Header} {d : List Byte} (hd' : d.length = hd.len.toNat)
    (hlow : hd.crc.setWidth 8 ≠ 0xff#8) (hlow0 : hd.crc.setWidth 8 ≠ 0#8) (hfit : hd.next g f ≤ g.dataEnd i)
    (hlim : ∀ n, md.lim = some n → g.roundUp d.length ≤ n) (hpl : md.cf = false → g.word < 8 → ∃ d0, md.was d0 ∧ hd = Header.ofData d0) :
    Sat (writeRaw g hd d f) s
      (fun _ s' => Frame s s' ∧ s'.fl.erases = s.fl.erases ∧ s'.cache.ps = s.cache.ps ∧
        Good md g s' σ (upd P i (.used false (its ++ [⟨f, hd, d⟩]) (hd.next g f))))
      (fun e s' => e = .shutoff ∧ Frame s s' ∧ s'.fl.erases = s.fl.erases ∧
        ((∃ f', Dead md g s' σ (upd P i (.used false its f'))) ∨
          ∃ k, Dead md g s' σ (upd P i (.used false (its ++ [⟨f, hd, tornData d k⟩]) (hd.next g f))))) := by
  have hpg := h.fs.pages i hi
  rw [hpk] at hpg
  have u : Used md g s.fl i false its f := hpg
  have hst := h.fs.st i hi
  rw [hpk] at hst
  have hb := u.bounds w
  have hpo := page_order w i
  have hpe := w.page_le hi
  have hrun := writeRaw_run w s hd' hb.2.2 (by omega) (by omega : hd.next g f ≤ g.stop)
  have hap := PageIs.append w hmd u hd' hlow hlow0 hfit hlim h.fs.fuel hpl
  have hbl := itemBytes_length w hd d
  have hnx : hd.next g f = f + g.hl + g.roundUp d.length := by rw [hd']; rfl
  have hidx : g.pageIndex f = i := w.pageIndex_of (by omega) (by omega)
  have hF : ∀ {pk}, PageIs md g (s.fl.prog g f (itemBytes g hd d)) i pk → pk.st = (PK.used false its f).st →
      FS md g (s.fl.prog g f (itemBytes g hd d)) σ (upd P i pk) := fun hp he =>
    h.fs.prog w (by omega) (by omega) hp h.fs.wf (by rw [he]; exact hst) (fun _ _ _ => rfl)
      (fun _ => clashes_blank fun x hx1 hx2 => u.fresh rfl (by omega) x hx1 (by omega))
  have hpp : PPOk g (upd P i (.used false (its ++ [⟨f, hd, d⟩]) (hd.next g f))) g.pageCount
      (s.cache.written g f (hd.next g f)).pp := by
    have hold := h.pp i hi
    rw [hpk] at hold
    have hna := PPCache.noticeWritten_after (c := s.cache.pp) (i := i) (next := hd.next g f) (by omega)
      (fun p hp => by
        obtain ⟨_, _, h'⟩ := hold.2 p hp
        simp only [PK.used.injEq] at h'; omega)
    simp only [Cache.written, hidx]
    apply h.pp.update
    · intro j hj; exact ⟨(hna j).1, (hna j).2.1 hj⟩
    · intro p hp
      rw [(hna i).1] at hp
      obtain ⟨c, pre, it, post, f', h1, h2, h3⟩ := hold.1 p hp
      simp only [PK.used.injEq] at h1
      exact ⟨false, pre, it, post ++ [⟨f, hd, d⟩], hd.next g f, by rw [h1.2.1]; simp, h2, h3⟩
    · intro p hp
      rw [(hna i).2.2 p hp]
      exact ⟨_, _, rfl⟩
  cases hall : s.fl.all (itemBytes g hd d).length with
  | true =>
    rw [hall, if_pos rfl] at hrun
    exact Sat.of_ok hrun ⟨⟨rfl, rfl, rfl, rfl⟩, rfl, rfl, ⟨hF (hap.1 hall) rfl, h.ps, hpp⟩⟩
  | false =>
    rw [hall] at hrun
    simp only [Bool.false_eq_true, if_false] at hrun
    have hcr := crash_of_not_all w h.fs hall
    refine Sat.of_err hrun ⟨rfl, ⟨rfl, rfl, rfl, rfl⟩, rfl, ?_⟩
    rcases hap.2 with ⟨f', hp⟩ | ⟨k, hp⟩
    · exact Or.inl ⟨f', hF hp rfl, h.ps.sized, rfl, hcr⟩
    · exact Or.inr ⟨k, hF hp rfl, h.ps.sized, rfl, hcr⟩

/-- Removing an item. -/
theorem removeItem {s : St K} (h : Good md g s σ P) (hmd : md.OK g) (hnp : md.np = false) {i : Nat}
    (hi : i < g.pageCount) {closed : Bool} {pre post : List It} {it : It} {f : Nat}
    (hpk : P i = .used closed (pre ++ it :: post) f) (hlow0 : it.hdr.crc.setWidth 8 ≠ 0#8) :
    Sat (eraseItem g it.hdr it.addr) s
      (fun _ s' => Frame s s' ∧ s'.fl.erases = s.fl.erases ∧ s'.cache.ps = s.cache.ps ∧
        Good md g s' σ (upd P i (.used closed (pre ++ { it with hdr := { it.hdr with crc := 0#32 } } :: post) f)))
      (fun e s' => e = .shutoff ∧ Frame s s' ∧ s'.fl.erases = s.fl.erases ∧
        ∃ k, Dead md g s' σ (upd P i (.used closed (pre ++ clearIt k it :: post) f))) := by
  have hpg := h.fs.pages i hi
  rw [hpk] at hpg
  have u : Used md g s.fl i closed (pre ++ it :: post) f := hpg
  have hst := h.fs.st i hi
  rw [hpk] at hst
  have hb := u.bounds w
  have hpo := page_order w i
  have hpe := w.page_le hi
  have hmem := u.layout.mem_item w (it := it) (by simp)
  have hdv := u.layout.mem_dvd w (w.dataStart_word i) (it := it) (by simp)
  have hel := encode_length w { it.hdr with crc := 0#32 }
  have hnx : it.hdr.next g it.addr = it.addr + g.hl + g.roundUp it.hdr.len.toNat := rfl
  have hc0 : it.hdr.crc ≠ 0#32 := by intro h; rw [h] at hlow0; exact hlow0 (by decide)
  have hidx : g.pageIndex it.addr = i := w.pageIndex_of (by omega) (by omega)
  have hcl := PageIs.clear w hmd u hlow0 hnp
  have hF : FS md g (s.fl.prog g it.addr (Header.encode g { it.hdr with crc := 0#32 })) σ
      (upd P i (.used closed (pre ++ clearIt (s.fl.got g.hl) it :: post) f)) :=
    h.fs.prog w (by omega) (by omega) hcl h.fs.wf (by rw [← hst]; cases closed <;> rfl) (fun _ _ _ => rfl)
      (u.clear_clashes w (by simp))
  unfold eraseItem
  refine Sat.bind_eq (modifyCache_run _ _) ?_
  have hwr := write_run w (K := K) { s with cache := { s.cache with
      dirty := true
      pp := s.cache.pp.noticeErased (g.pageIndex it.addr) (g.pageAddr (g.pageIndex it.addr) + g.word) it.addr
        (Header.next g { it.hdr with crc := 0#32 } it.addr) } } (a := it.addr)
      (bs := Header.encode g { it.hdr with crc := 0#32 }) hdv (by rw [hel]; exact w.hl_dvd) (by omega) (by omega) (by omega)
  rw [hel] at hwr
  cases hall : s.fl.all g.hl with
  | true =>
    simp only [hall, if_true] at hwr
    have hcl0 : clearIt (s.fl.got g.hl) it = { it with hdr := { it.hdr with crc := 0#32 } } := by
      rw [Flash.got_all hall]
      unfold clearIt
      rw [clearedCrc_full _ (by omega)]
    rw [hcl0] at hF
    refine Sat.of_ok hwr ⟨⟨rfl, rfl, rfl, rfl⟩, rfl, rfl, hF, h.ps, ?_⟩
    have hold := h.pp i hi
    rw [hpk] at hold
    simp only [hidx]
    have hne := PPCache.noticeErased_after (c := s.cache.pp) (i := i) (d := g.pageAddr i + g.word) (a := it.addr)
      (next := Header.next g { it.hdr with crc := 0#32 } it.addr) (by unfold Header.next; omega)
    apply h.pp.update
    · intro j hj; exact ⟨(hne j).2.1 hj, (hne j).1⟩
    · intro p hp
      rcases (hne i).2.2 p hp with hp | ⟨rfl, ha⟩
      · obtain ⟨c, pre', it', post', f', h1, h2, h3⟩ := hold.1 p hp
        simp only [PK.used.injEq] at h1
        obtain ⟨mid, h4, h5⟩ := split_erased h1.2.1 h2 hc0
        refine ⟨closed, pre', it', mid ++ { it with hdr := { it.hdr with crc := 0#32 } } :: post, f, ?_, h2, h3⟩
        rw [h4]; simp
      · refine ⟨closed, pre, { it with hdr := { it.hdr with crc := 0#32 } }, post, f, rfl, ?_, rfl⟩
        intro x hx
        rcases List.mem_append.1 hx with hx | hx
        · cases he : s.cache.pp.afterErased i with
          | none =>
            exfalso
            rw [he] at ha
            simp only [Option.getD_none] at ha
            have h1 := (u.layout.before w).2 x hx
            have h2 := (u.layout.mem_item w (it := x) (by simp [hx])).1
            have := Layout.next_gt w x.hdr x.addr
            omega
          | some p =>
            rw [he] at ha
            simp only [Option.getD_some] at ha
            obtain ⟨c, pre', it', post', f', h1, h2, h3⟩ := hold.1 p he
            simp only [PK.used.injEq] at h1
            obtain ⟨mid, h4, h5⟩ := split_erased h1.2.1 h2 hc0
            cases mid with
            | nil => exact h2 x (by rw [h4] at hx; exact hx)
            | cons y mid =>
              exfalso
              have hl := u.layout
              rw [h4, List.append_assoc, List.cons_append] at hl
              have hs := hl.suffix w
              have h6 := (hs.before w).2 y (by simp)
              have h7 := (hs.mem_item w (it := y) (by simp)).1
              have := Layout.next_gt w y.hdr y.addr
              omega
        · simp at hx; rw [hx]
    · intro p hp
      rw [(hne i).1] at hp
      obtain ⟨c, its', h1⟩ := hold.2 p hp
      simp only [PK.used.injEq] at h1
      exact ⟨closed, _, by rw [h1.2.2]⟩
  | false =>
    simp only [hall, Bool.false_eq_true, if_false] at hwr
    exact Sat.of_err hwr ⟨rfl, ⟨rfl, rfl, rfl, rfl⟩, rfl, _, hF, h.ps.sized, rfl, crash_of_not_all w h.fs hall⟩

/-! ### Repair -/

theorem repairIn_clean {s : St K} (h : FS md g s.fl σ P) (l : List Nat) (hl : ∀ i ∈ l, i < g.pageCount)
    (hc : ∀ i ∈ l, ∀ e, σ.st g.pageCount i ≠ .error e) : generalRepairIn g l s = (.ok (), s) := by
  induction l with
  | nil => rfl
  | cons i l ih =>
    unfold generalRepairIn
    have hi := hl i (by simp)
    have hrun := getPageState_run w s hi (h.pages i hi)
    rw [h.st i hi] at hrun
    rw [bind_ok (attempt_run _ _), hrun]
    cases hst : σ.st g.pageCount i with
    | error e => exact absurd hst (hc i (by simp) e)
    | ok st =>
      exact ih (fun j hj => hl j (by simp [hj])) (fun j hj => hc j (by simp [hj]))

omit w in
theorem fixCorr_wf (h : σ.WF g.pageCount) : σ.fixCorr.WF g.pageCount :=
  ⟨h.o_lt, h.m_le, h.part_pos, fun hm => ⟨(h.full hm).1, rfl⟩, fun hm => ⟨(h.empty hm).1, rfl⟩⟩

/-- The page an interrupted erase has left unreadable. -/
def Shape.torn (σ : Shape) (n : Nat) : Nat := ringPage n σ.o (n - 1)

omit w in
theorem torn_unique (wf : σ.WF g.pageCount) {i : Nat} (hi : i < g.pageCount) {e : Err}
    (h : σ.st g.pageCount i = .error e) : i = σ.torn g.pageCount := by
  rw [Shape.st_err] at h
  rw [Shape.torn, ← ringPage_pos wf.o_lt hi]
  congr 1; omega

omit w in
theorem torn_lt (wf : σ.WF g.pageCount) : σ.torn g.pageCount < g.pageCount := by
  have := wf.o_lt
  exact ringPage_lt wf.o_lt (by omega)

omit w in
theorem torn_st (wf : σ.WF g.pageCount) (hc : σ.corr = true) :
    σ.st g.pageCount (σ.torn g.pageCount) = .error .corrupted := by
  have ho := wf.o_lt
  have hp : ringPos g.pageCount σ.o (σ.torn g.pageCount) = g.pageCount - 1 := ringPos_page ho (by omega)
  rw [Shape.st_err, hp]
  have hm := wf.m_le
  have : σ.m ≠ g.pageCount := by
    intro h; have := (wf.full h).2; rw [hc] at this; simp at this
  exact ⟨rfl, by omega, hc, by omega⟩

omit w in
theorem fixCorr_st (wf : σ.WF g.pageCount) {j : Nat} (hj : j < g.pageCount) (hne : j ≠ σ.torn g.pageCount) :
    σ.fixCorr.st g.pageCount j = σ.st g.pageCount j := by
  unfold Shape.st
  simp only [Shape.fixCorr, Bool.false_eq_true, false_and, if_false]
  have : ringPos g.pageCount σ.o j + 1 ≠ g.pageCount := by
    intro h; apply hne
    rw [Shape.torn, ← ringPage_pos wf.o_lt hj]; congr 1; omega
  simp only [this, and_false, if_false]
  rfl

omit w in
theorem fixCorr_st_torn (wf : σ.WF g.pageCount) (hc : σ.corr = true) :
    σ.fixCorr.st g.pageCount (σ.torn g.pageCount) = .ok .open := by
  have := torn_st wf hc
  rw [Shape.st_err] at this
  rw [Shape.st_open]
  exact ⟨this.2.1, by simp [Shape.fixCorr]⟩

/-- `try_general_repair` with empty caches. -/
theorem generalRepair {s : St K} (h : FS md g s.fl σ P) {ps : PSCache} {pp : PPCache}
    (hps : s.cache.ps = ps.invalidate) (hpp : s.cache.pp = pp.invalidate) (hs : PSOk.Sized g.pageCount ps)
    (l : List Nat) (hl : ∀ i ∈ l, i < g.pageCount) :
    Sat (generalRepairIn g l) s
      (fun _ s' => Frame s s' ∧
        (σ.corr = true → σ.torn g.pageCount ∈ l →
          Good md g s' σ.fixCorr (upd P (σ.torn g.pageCount) .blank)) ∧
        (σ.corr = false ∨ σ.torn g.pageCount ∉ l → s' = s))
      (fun e s' => e = .shutoff ∧ Frame s s' ∧ σ.corr = true ∧ (Dead md g s' σ P ∨
        Dead md g s' σ.fixCorr (upd P (σ.torn g.pageCount) .blank))) := by
  induction l with
  | nil => exact Sat.pure ⟨.refl s, fun _ h => absurd h (by simp), fun _ => rfl⟩
  | cons i l ih =>
    unfold generalRepairIn
    have hi := hl i (by simp)
    have hrun := getPageState_run w s hi (h.pages i hi)
    rw [h.st i hi] at hrun
    refine Sat.bind_eq (attempt_run _ _) ?_
    rw [hrun]
    cases hst : σ.st g.pageCount i with
    | ok st =>
      refine (ih (fun j hj => hl j (by simp [hj]))).mono ?_ (fun e s' h => h)
      rintro a s' ⟨h1, h2, h3⟩
      refine ⟨h1, fun hc hm => h2 hc ?_, fun h' => h3 ?_⟩
      · rcases List.mem_cons.1 hm with hm | hm
        · rw [← hm, torn_st h.wf hc] at hst; simp at hst
        · exact hm
      · rcases h' with h' | h'
        · exact Or.inl h'
        · exact Or.inr (fun hm => h' (by simp [hm]))
    | error e =>
      have hti := torn_unique h.wf hi hst
      subst hti
      have hcorr := (Shape.st_err.1 hst).2.2.1
      have he := (Shape.st_err.1 hst).1
      subst he
      have hwf := fixCorr_wf h.wf
      have hso := fixCorr_st_torn h.wf hcorr
      obtain ⟨ps', h1, h2⟩ := PSOk.freshOpen hs hi hso
      rw [← hps] at h1
      have hopen := openPage_run w hi h1
      have hpg := h.pages _ hi
      have hstp := h.st _ hi
      have hpk : P (σ.torn g.pageCount) = .corr := by
        rw [hst] at hstp
        cases hpk : P (σ.torn g.pageCount) with
        | corr => rfl
        | blank => rw [hpk] at hstp; simp [PK.st] at hstp
        | junk => rw [hpk] at hstp; simp [PK.st] at hstp
        | used c a b => rw [hpk] at hstp; cases c <;> simp [PK.st] at hstp
      rw [hpk] at hpg
      have her := PageIs.erase w hpg h.fuel
      have hblank : PageIs md g (s.fl.clr g (σ.torn g.pageCount)) (σ.torn g.pageCount) .blank →
          FS md g (s.fl.clr g (σ.torn g.pageCount)) σ.fixCorr (upd P (σ.torn g.pageCount) .blank) := fun hb =>
        h.clr w hb hwf (by rw [hso]; rfl) (fun j hj hne => fixCorr_st h.wf hj hne)
      cases hall : s.fl.all g.eraseSize with
      | true =>
        rw [hall, if_pos rfl] at hopen
        refine Sat.bind_eq hopen ?_
        have hF := hblank (her.1 hall)
        have hrest := repairIn_clean w (K := K) (s := { s with
          fl := s.fl.clr g (σ.torn g.pageCount)
          cache := { s.cache with dirty := true, ps := ps', pp := s.cache.pp.noticePage (σ.torn g.pageCount) .open } })
          hF l (fun j hj => hl j (by simp [hj])) (fun j hj e he => by
            rw [Shape.st_err] at he; simp [Shape.fixCorr] at he)
        refine Sat.of_ok hrest ⟨⟨rfl, rfl, rfl, rfl⟩, fun _ _ => ⟨hF, h2, ?_⟩, ?_⟩
        · simp only [hpp]
          exact (PPOk.invalidate (P := P)).open _
        · rintro (h' | h')
          · rw [hcorr] at h'; simp at h'
          · simp at h'
      | false =>
        rw [hall] at hopen
        simp only [Bool.false_eq_true, if_false] at hopen
        have hcr := crash_of_not_all w h hall
        refine Sat.of_err (bind_err hopen) ⟨rfl, ⟨rfl, rfl, rfl, rfl⟩, hcorr, ?_⟩
        rcases her.2 with hb | ⟨_, hb⟩
        · exact Or.inr ⟨hblank hb, h2.sized, rfl, hcr⟩
        · left
          refine ⟨?_, h2.sized, rfl, hcr⟩
          have := h.clr w (σ' := σ) hb h.wf (by rw [← hpk]; exact h.st _ hi) (fun _ _ _ => rfl)
          rw [← hpk, upd_self] at this
          exact this

omit w in
theorem mem_pages {start i : Nat} (hs : start < g.pageCount) : i ∈ g.pages start ↔ i < g.pageCount := by
  unfold Geo.pages
  simp only [List.mem_map, List.mem_range]
  constructor
  · rintro ⟨j, hj, rfl⟩; exact Nat.mod_lt _ (by omega)
  · intro hi
    refine ⟨ringPos g.pageCount start i, ringPos_lt hs hi, ?_⟩
    unfold ringPos
    split
    · rw [Nat.sub_add_cancel (by omega), Nat.mod_eq_of_lt hi]
    · rw [Nat.sub_add_cancel (by omega), Nat.add_mod_right, Nat.mod_eq_of_lt hi]

end SeqStorage
