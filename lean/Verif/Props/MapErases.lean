import Verif.Proofs.MapErases
import Verif.Props.MapCapacity
/-
How often a map erases its pages: C62.
-/

set_option linter.unusedSectionVars false

namespace SeqStorage.Props
open SeqStorage Spec M Codec

variable {K V : Type} [DecidableEq K] {kc : KeyCodec K} {vc : ValCodec V} {c : Coding K V} {g : Geo} {s : St K} {lim : Nat}

/-- C62. A map on a fresh region erases a page only when a store goes to another page and all but one are in use: at
every moment each page that was begun is in use or was erased once since. -/
theorem map_counts_its_erases (w : g.WF) (hc : Codes kc vc c) (hn : 2 ≤ g.pageCount) (h : MStart g s) (cs : List (MCall K V (Cache K)))
    (hd : ∀ call ∈ cs, MUsable g lim c call) :
    ∃ ps, Runs (mapEraseStep g.word g.eraseSize g.pageCount c) ([], 0) cs (mrun g kc vc cs s).1
      (ps, (mrun g kc vc cs s).2.fl.erases.length) := by
  have h0 := h.mi (kc := kc) (vc := vc) (lim := lim) w hn
  obtain ⟨σ', P', h1, h2⟩ := mrun_count w hc hn cs h0 hd
  rw [h1.erases w]
  exact ⟨_, h2⟩

theorem mpages_initial : (mpages kc vc g Shape.initial fun _ => PK.blank) = [] := rfl

theorem storeTurns_le {W page n size : Nat} : ∀ (left : Nat) (ps : List (List (MSlot K V))), storeTurns W page n size left ps ≤ left := by
  intro left
  induction left with
  | zero => intro ps; exact Nat.le_refl _
  | succ left ih =>
    intro ps
    rw [storeTurns.eq_def]
    simp only
    have := ih (turnPages n ps)
    split
    · split <;> omega
    · omega

/-! ### Few erases -/

/-- The bytes taken of the last page. -/
def lastOccupied (ps : List (List (MSlot K V))) : Nat := occupied (ps.getLast?.getD [])

/-- The sizes of all slots. -/
def AllSizes (Z : Nat → Prop) (ps : List (List (MSlot K V))) : Prop := ∀ p ∈ ps, ∀ x ∈ p, Z x.1

theorem turnPages_sizes {n : Nat} {Z : Nat → Prop} {ps : List (List (MSlot K V))} (h : AllSizes Z ps) : AllSizes Z (turnPages n ps) := by
  unfold turnPages
  split
  · intro p hp x hx
    rcases List.mem_append.1 hp with hp | hp
    · exact h p hp x hx
    · simp only [List.mem_singleton] at hp; subst hp; simp at hx
  · intro p hp x hx
    rcases List.mem_append.1 hp with hp | hp
    · exact h p (List.mem_of_mem_tail hp) x hx
    · simp only [List.mem_singleton] at hp; subst hp
      have := current_sub hx
      cases ps with
      | nil => simp at this
      | cons q ps => exact h q (by simp) x this

theorem clear_size (k? : Option K) (x : MSlot K V) : (clear k? x).1 = x.1 := by
  unfold clear
  split
  · split <;> rfl
  · rfl
  · rfl

theorem occupied_clear (k? : Option K) (p : List (MSlot K V)) : occupied (p.map (clear k?)) = occupied p := by
  unfold occupied
  rw [List.map_map]
  congr 1
  exact List.map_congr_left fun x _ => clear_size k? x

theorem lastOccupied_clear (k? : Option K) (ps : List (List (MSlot K V))) : lastOccupied (ps.map fun p => p.map (clear k?)) = lastOccupied ps := by
  unfold lastOccupied
  rw [List.getLast?_map]
  cases ps.getLast? with
  | none => rfl
  | some p => exact occupied_clear k? p

theorem clear_sizes {Z : Nat → Prop} {k? : Option K} {ps : List (List (MSlot K V))} (h : AllSizes Z ps) :
    AllSizes Z (ps.map fun p => p.map (clear k?)) := by
  intro p hp x hx
  obtain ⟨q, hq, rfl⟩ := List.mem_map.1 hp
  obtain ⟨y, hy, rfl⟩ := List.mem_map.1 hx
  rw [clear_size]; exact h q hq y hy

/-- A store with enough room goes to another page at most once. -/
theorem store_once {W page n size L : Nat} {ps : List (List (MSlot K V))} {k : K} {v : V} (hn : 2 ≤ n)
    (hcur : ((currents ps).map occupied).sum ≤ L) (hfit : L + size + 2 * W ≤ page) :
    (∃ p, ps.getLast? = some p ∧ storeTurns W page n size n ps = 0 ∧
      storePaged W page n size k v n ps = (true, ps.dropLast ++ [p ++ [(size, some (k, v))]])) ∨
    (LastFull W page size ps ∧ storeTurns W page n size n ps = 1 ∧ ∃ p, occupied p ≤ L ∧ p ∈ turnPages n ps ∧
      storePaged W page n size k v n ps = (true, (turnPages n ps).dropLast ++ [p ++ [(size, some (k, v))]])) := by
  obtain ⟨m, rfl⟩ : ∃ m, n = m + 2 := ⟨n - 2, by omega⟩
  rcases lastFull_or (W := W) (page := page) (size := size) ps with hf | ⟨p, hp, hr⟩
  · refine Or.inr ⟨hf, ?_⟩
    obtain ⟨p, hp, ho⟩ : ∃ p, (turnPages (m + 2) ps).getLast? = some p ∧ occupied p ≤ L := by
      unfold turnPages
      split
      · exact ⟨[], by simp, by simp [occupied]⟩
      · refine ⟨_, getLast?_snoc _ _, ?_⟩
        cases ps with
        | nil => simp [occupied, current]
        | cons q ps =>
          simp only [currents, List.map_cons, List.sum_cons] at hcur
          simp only [List.tail_cons, List.headD_cons]
          omega
    have hr : HasRoom W page size p := by unfold HasRoom; omega
    refine ⟨?_, p, ho, List.mem_of_getLast? hp, ?_⟩
    · rw [storeTurns_full hf, storeTurns_room hp hr]
    · rw [storePaged_full hf, storePaged_room hp hr]
  · exact Or.inl ⟨p, hp, storeTurns_room hp hr, storePaged_room hp hr⟩

/-- One call, and what it adds to the pages begun, the last page and the bytes stored. -/
theorem step_few {ρ : Type} {W page n L T κ : Nat} {Z : Nat → Prop} (hn : 2 ≤ n) {ps ps' : List (List (MSlot K V))} {e e' S : Nat}
    {call : MCall K V ρ} {r : Except Err (MAnswer K V)} (h : mapEraseStep W page n c (ps, e) call r (ps', e'))
    (hcur : ((currents ps).map occupied).sum ≤ L) (hLT : L ≤ T)
    (hst : ∀ k v b, call = .store k v b → Writable W page c k v b → L + itemSize W (c.data k v) + 2 * W ≤ page ∧ Z (itemSize W (c.data k v)))
    (hT : ∀ size p, Z size → (∀ x ∈ p, Z (Prod.fst (x : MSlot K V))) → ¬ HasRoom W page size p → T ≤ occupied p + κ * size)
    (hz : AllSizes Z ps) (h0 : ps = [] → e = 0) (hS : (e + ps.length - 1) * (T - L) + lastOccupied ps ≤ (1 + κ) * S) :
    AllSizes Z ps' ∧ (ps' = [] → e' = 0) ∧
      (e' + ps'.length - 1) * (T - L) + lastOccupied ps' ≤ (1 + κ) * (S + bytesStored W c [call] [r]) := by
  obtain ⟨h1, t, h2, h3⟩ := h
  simp only at h1 h2 h3
  have same : ps' = ps → t = 0 → AllSizes Z ps' ∧ (ps' = [] → e' = 0) ∧
      (e' + ps'.length - 1) * (T - L) + lastOccupied ps' ≤ (1 + κ) * (S + bytesStored W c [call] [r]) := by
    rintro rfl rfl
    have : e' = e := by omega
    subst this
    exact ⟨hz, h0, Nat.le_trans hS (Nat.mul_le_mul_left _ (Nat.le_add_right _ _))⟩
  have wiped : ∀ k?, ps' = ps.map (fun p => p.map (clear k?)) → t = 0 → AllSizes Z ps' ∧ (ps' = [] → e' = 0) ∧
      (e' + ps'.length - 1) * (T - L) + lastOccupied ps' ≤ (1 + κ) * (S + bytesStored W c [call] [r]) := by
    rintro k? rfl rfl
    have : e' = e := by simpa using h3
    subst this
    refine ⟨clear_sizes hz, fun hx => h0 (by simpa using hx), ?_⟩
    rw [lastOccupied_clear, List.length_map]
    exact Nat.le_trans hS (Nat.mul_le_mul_left _ (Nat.le_add_right _ _))
  cases call with
  | fetch k b => exact same h1.2 h2
  | fetchAll b steps => exact same h1.2 h2
  | restart x => exact same h1 h2
  | remove k b => exact wiped _ h1 h2
  | removeAll b => exact wiped _ h1 h2
  | store k v b =>
    by_cases hw : Writable W page c k v b
    · obtain ⟨hfit, hZ⟩ := hst k v b rfl hw
      have h2 := h2.1 hw
      obtain ⟨hr, hps⟩ := h1.1 hw
      have hmul : ∀ a, (1 + κ) * (S + a) = (1 + κ) * S + a + κ * a := by intro a; rw [Nat.mul_add, Nat.add_mul 1 κ a]; omega
      rcases store_once (k := k) (v := v) hn hcur hfit with ⟨p, hp, ht, hsp⟩ | ⟨hf, ht, p, ho, hpm, hsp⟩
      · rw [hsp] at hr hps
        simp only [if_true] at hr hps
        subst hr
        simp only [bytesStored]
        have hne : ps ≠ [] := by rintro rfl; simp at hp
        have hlen : ps'.length = ps.length := by
          have := List.length_pos_iff.2 hne
          rw [hps]; simp; omega
        have he : e' = e := by rw [h2, ht] at h3; omega
        subst he
        refine ⟨?_, fun hx => by rw [hps] at hx; simp at hx, ?_⟩
        · rw [hps]
          intro q hq x hx
          rcases List.mem_append.1 hq with hq | hq
          · exact hz q (List.dropLast_subset _ hq) x hx
          · simp only [List.mem_singleton] at hq; subst hq
            rcases List.mem_append.1 hx with hx | hx
            · exact hz p (List.mem_of_getLast? hp) x hx
            · simp only [List.mem_singleton] at hx; subst hx; exact hZ
        · rw [hlen]
          have h4 : lastOccupied ps' = lastOccupied ps + itemSize W (c.data k v) := by
            unfold lastOccupied; rw [hps, getLast?_snoc, hp]; simp [occupied]
          rw [h4, Nat.add_zero, hmul]
          omega
      · rw [hsp] at hr hps
        simp only [if_true] at hr hps
        subst hr
        simp only [bytesStored]
        have hlen : ps'.length = (turnPages n ps).length := by
          have := List.length_pos_iff.2 (List.ne_nil_of_mem hpm)
          rw [hps]; simp; omega
        have hzt := turnPages_sizes (n := n) hz
        have h4 : lastOccupied ps' = occupied p + itemSize W (c.data k v) := by
          unfold lastOccupied; rw [hps, getLast?_snoc]; simp [occupied]
        refine ⟨?_, fun hx => by rw [hps] at hx; simp at hx, ?_⟩
        · rw [hps]
          intro q hq x hx
          rcases List.mem_append.1 hq with hq | hq
          · exact hzt q (List.dropLast_subset _ hq) x hx
          · simp only [List.mem_singleton] at hq; subst hq
            rcases List.mem_append.1 hx with hx | hx
            · exact hzt p hpm x hx
            · simp only [List.mem_singleton] at hx; subst hx; exact hZ
        · simp only [Nat.add_zero]
          rw [h3, h2, ht, h4, hmul]
          cases hl : ps.getLast? with
          | none =>
            have : ps = [] := by simpa using hl
            subst this
            rw [h0 rfl]
            have : p = [] := by
              unfold turnPages at hpm
              rw [if_pos (by simp; omega)] at hpm
              simpa using hpm
            subst this
            simp [occupied]; omega
          | some q =>
            have hne : ps.length ≠ 0 := by
              intro hx
              rw [List.length_eq_zero_iff] at hx
              subst hx; simp at hl
            have h5 := hT _ q hZ (hz q (List.mem_of_getLast? hl)) (hf q hl)
            have h6 : lastOccupied ps = occupied q := by unfold lastOccupied; rw [hl]; rfl
            have h7 : e + ps.length + 1 - 1 = (e + ps.length - 1) + 1 := by omega
            rw [h7, Nat.add_mul]
            rw [h6] at hS
            omega
    · have hps := h1.2 hw
      have ht := h2.2 hw
      cases ps with
      | nil =>
        simp only [List.isEmpty_nil, if_true] at hps ht
        rw [hps, ht] at h3
        rw [hps]
        rw [h0 rfl] at h3
        have : e' = 0 := by simpa using h3
        subst this
        exact ⟨by intro p hp x hx; simp only [List.mem_singleton] at hp; subst hp; simp at hx, by simp, by simp [lastOccupied, occupied]⟩
      | cons p ps => exact same (by simpa using hps) (by simpa using ht)

theorem bytesStored_cons {ρ : Type} {W : Nat} (call : MCall K V ρ) (cs : List (MCall K V ρ)) (r : Except Err (MAnswer K V))
    (rs : List (Except Err (MAnswer K V))) : bytesStored W c (call :: cs) (r :: rs) = bytesStored W c [call] [r] + bytesStored W c cs rs := by
  cases call <;> cases r <;> simp [bytesStored]

/-- All calls. -/
theorem run_few {L T κ : Nat} {Z : Nat → Prop} (w : g.WF) (hc : Codes kc vc c) (hn : 2 ≤ g.pageCount) (hLT : L ≤ T)
    (hT : ∀ size p, Z size → (∀ x ∈ p, Z (Prod.fst (x : MSlot K V))) → ¬ HasRoom g.word g.eraseSize size p → T ≤ occupied p + κ * size)
    (cs : List (MCall K V (Cache K))) :
    ∀ {s : St K} {σ : Shape} {P : Nat → PK} {S : Nat}, MI kc vc g lim s σ P → (∀ call ∈ cs, MUsable g lim c call) →
      (∀ k v b, .store k v b ∈ cs → Writable g.word g.eraseSize c k v b →
        L + itemSize g.word (c.data k v) + 2 * g.word ≤ g.eraseSize ∧ Z (itemSize g.word (c.data k v))) →
      (∀ i σ P, MI kc vc g lim (mrun g kc vc (cs.take i) s).2 σ P → AllSizes Z (mpages kc vc g σ P) →
        ((currents (mpages kc vc g σ P)).map occupied).sum ≤ L) →
      AllSizes Z (mpages kc vc g σ P) → (mpages kc vc g σ P = [] → σ.d = 0) →
      (σ.d + (mpages kc vc g σ P).length - 1) * (T - L) + lastOccupied (mpages kc vc g σ P) ≤ (1 + κ) * S →
      (mrun g kc vc cs s).2.fl.erases.length * (T - L) ≤ (1 + κ) * (S + bytesStored g.word c cs (mrun g kc vc cs s).1) := by
  induction cs with
  | nil =>
    intro s σ P S h _ _ _ _ h0 hS
    show s.fl.erases.length * (T - L) ≤ (1 + κ) * (S + 0)
    rw [h.erases w, Nat.add_zero]
    refine Nat.le_trans ?_ (Nat.le_trans (Nat.le_add_right _ _) hS)
    cases hp : mpages kc vc g σ P with
    | nil => rw [h0 hp]; simp
    | cons p ps => exact Nat.mul_le_mul_right _ (by simp only [List.length_cons]; omega)
  | cons call cs ih =>
    intro s σ P S h hd hst hcur hz h0 hS
    have hd1 := hd call (by simp)
    obtain ⟨h1, h2⟩ := mcall_det w hc hn h call hd1
    obtain ⟨t, ht1, ht2⟩ := mcall_count w hc hn h call hd1
    have hstep : mapEraseStep g.word g.eraseSize g.pageCount c (mpages kc vc g σ P, σ.d) call (mcall g kc vc call s).1
        (mpages kc vc g (mcallA kc vc g σ P call).2.1 (mcallA kc vc g σ P call).2.2, (mcallA kc vc g σ P call).2.1.d) := by
      refine ⟨by rw [h1]; exact mcall_paged w hc hn h call hd1, t, ht1, ?_⟩
      simp only [mpages_length]; exact ht2
    obtain ⟨a1, a2, a3⟩ := step_few hn hstep (hcur 0 σ P h hz) hLT (fun k v b he => hst k v b (by simp [he])) hT hz h0 hS
    have := ih h2 (fun x hx => hd x (by simp [hx])) (fun k v b hm => hst k v b (by simp [hm]))
      (fun i σ P hm hz' => hcur (i + 1) σ P hm hz') a1 a2 a3
    refine Nat.le_trans this (Nat.mul_le_mul_left _ ?_)
    rw [Nat.add_assoc]
    refine Nat.add_le_add_left ?_ _
    show _ ≤ bytesStored g.word c (call :: cs) ((mcall g kc vc call s).1 :: (mrun g kc vc cs (mcall g kc vc call s).2).1)
    rw [bytesStored_cons call cs]
    exact Nat.le_refl _

/-- C62. A map that never holds more than `L` bytes erases little: on a fresh region, each erase makes room for what was
stored since, which is at least half of what `L` leaves of a page. Fetches, iterations, removals and restarts do not
matter. -/
theorem map_erases_little {L : Nat} (w : g.WF) (hc : Codes kc vc c) (hn : 2 ≤ g.pageCount) (h : MStart g s) (cs : List (MCall K V (Cache K)))
    (hd : ∀ call ∈ cs, MUsable g lim c call)
    (hL : ∀ i m, Fetches kc vc g lim (mrun g kc vc (cs.take i) s).2 m →
      ∃ ks, (∀ k, m k ≠ none → k ∈ ks) ∧ c.total g.word m ks ≤ L)
    (hst : ∀ k v b, .store k v b ∈ cs → Writable g.word g.eraseSize c k v b →
      L + itemSize g.word (c.data k v) + 2 * g.word ≤ g.eraseSize) :
    (mrun g kc vc cs s).2.fl.erases.length * (g.eraseSize - 2 * g.word - L) ≤ 2 * bytesStored g.word c cs (mrun g kc vc cs s).1 := by
  by_cases hLT : L ≤ g.eraseSize - 2 * g.word
  · have := run_few (L := L) (T := g.eraseSize - 2 * g.word) (κ := 1) (Z := fun _ => True) (S := 0) w hc hn hLT
      (by intro size p _ _ hr; unfold HasRoom at hr; omega) cs (h.mi (kc := kc) (vc := vc) (lim := lim) w hn) hd
      (fun k v b hm hw => ⟨hst k v b hm hw, trivial⟩) (by
        intro i σ P hi _
        obtain ⟨ks, h1, h2⟩ := hL i _ ((hi.have hc.lawful).fetches w hc hn rfl rfl)
        obtain ⟨_, h3, _⟩ := hi
        exact Nat.le_trans (currents_total (mpages_sized w hc h3) ks h1) h2)
      (fun _ _ _ _ => trivial) (fun _ => rfl) (by rw [mpages_initial]; simp [lastOccupied, occupied, Shape.initial])
    rw [Nat.zero_add] at this
    exact this
  · rw [Nat.sub_eq_zero_of_le (by omega)]; simp

theorem valueIn_mem {l : List (MSlot K V)} {k : K} {v : V} (h : valueIn l k = some v) : ∃ x ∈ l, x.2 = some (k, v) := by
  unfold valueIn at h
  induction l with
  | nil => simp [lastOf] at h
  | cons x l ih =>
    obtain ⟨b, _ | ⟨k', v'⟩⟩ := x
    · obtain ⟨x, hx, he⟩ := ih h
      exact ⟨x, by simp [hx], he⟩
    · simp only [List.filterMap_cons, lastOf] at h
      cases hl : lastOf k (l.filterMap (·.2)) with
      | some y =>
        rw [hl] at h
        obtain ⟨x, hx, he⟩ := ih (hl.trans h)
        exact ⟨x, by simp [hx], he⟩
      | none =>
        rw [hl] at h
        by_cases he : k' = k
        · rw [if_pos he] at h
          injection h with h
          exact ⟨_, List.mem_cons_self, by rw [he, h]⟩
        · rw [if_neg he] at h; simp at h

theorem occupied_same {z : Nat} {p : List (MSlot K V)} (h : ∀ x ∈ p, x.1 = z) : occupied p = p.length * z := by
  unfold occupied
  induction p with
  | nil => simp
  | cons x p ih =>
    rw [List.map_cons, List.sum_cons, h x (by simp), ih (fun y hy => h y (by simp [hy])), List.length_cons, Nat.add_mul]
    omega

theorem bytesStored_same {ρ : Type} {W z : Nat} (cs : List (MCall K V ρ)) : ∀ (rs : List (Except Err (MAnswer K V))),
    (∀ k v b, .store k v b ∈ cs → itemSize W (c.data k v) = z) → bytesStored W c cs rs = storesDone cs rs * z := by
  induction cs with
  | nil => intro rs _; cases rs <;> simp [bytesStored, storesDone]
  | cons call cs ih =>
    intro rs h
    cases rs with
    | nil => cases call <;> simp [bytesStored, storesDone]
    | cons r rs =>
      have ih := ih rs (fun k v b hm => h k v b (by simp [hm]))
      cases call <;> cases r <;> simp only [bytesStored, storesDone, ih]
      rename_i k v b _
      rw [h k v b (by simp), Nat.add_mul, Nat.one_mul]

/-- C62. With items of the same size, of which `N` fit on a page, and at most `q` keys at a time: each page erased was
filled with at least `N - q` stores. -/
theorem map_erases_once_per_page {z q : Nat} (hz : 0 < z) (w : g.WF) (hc : Codes kc vc c) (hn : 2 ≤ g.pageCount) (h : MStart g s)
    (cs : List (MCall K V (Cache K))) (hd : ∀ call ∈ cs, MUsable g lim c call)
    (hq : ∀ i m, Fetches kc vc g lim (mrun g kc vc (cs.take i) s).2 m → ∃ ks : List K, (∀ k, m k ≠ none → k ∈ ks) ∧ ks.length ≤ q)
    (hst : ∀ k v b, .store k v b ∈ cs → itemSize g.word (c.data k v) = z) :
    (mrun g kc vc cs s).2.fl.erases.length * ((g.eraseSize - 2 * g.word) / z - q) ≤ storesDone cs (mrun g kc vc cs s).1 := by
  have hpg : 2 * g.word ≤ g.eraseSize := by have := w.fits; omega
  generalize hU : g.eraseSize - 2 * g.word = U
  by_cases hqN : q < U / z
  · have hdm := Nat.div_mul_le_self U z
    have hqz : (q + 1) * z ≤ U / z * z := Nat.mul_le_mul_right _ hqN
    have hq1 : (q + 1) * z = q * z + z := by rw [Nat.add_mul, Nat.one_mul]
    have := run_few (L := q * z) (T := U / z * z) (κ := 0) (Z := fun x => x = z) (S := 0) w hc hn (by omega)
      (by
        rintro size p rfl hp hr
        rw [occupied_same hp]
        unfold HasRoom at hr
        rw [occupied_same hp] at hr
        have : U < (p.length + 1) * size := by rw [Nat.add_mul]; omega
        have : U / size < p.length + 1 := Nat.div_lt_of_lt_mul (by rw [Nat.mul_comm]; exact this)
        have := Nat.mul_le_mul_right size (Nat.le_of_lt_succ this)
        omega) cs (h.mi (kc := kc) (vc := vc) (lim := lim) w hn) hd
      (fun k v b hm hw => ⟨by rw [hst k v b hm]; omega, hst k v b hm⟩) (by
        intro i σ P hi hzs
        obtain ⟨ks, h1, h2⟩ := hq i _ ((hi.have hc.lawful).fetches w hc hn rfl rfl)
        obtain ⟨_, h3, _⟩ := hi
        have hsz := mpages_sized w hc h3
        refine Nat.le_trans (currents_total hsz ks h1) (Nat.le_trans ?_ (Nat.mul_le_mul_right _ h2))
        clear h1 h2
        induction ks with
        | nil => simp [Coding.total]
        | cons k ks ih =>
          have ih' : c.total g.word (valueIn (mpages kc vc g σ P).flatten) ks ≤ ks.length * z := ih
          unfold Coding.total at ih' ⊢
          rw [List.map_cons, List.sum_cons, List.length_cons, Nat.add_mul, Nat.one_mul, Nat.add_comm (ks.length * z)]
          refine Nat.add_le_add ?_ ih'
          split
          · rename_i v hv
            obtain ⟨x, hx, he⟩ := valueIn_mem hv
            rw [← hsz x hx k v he]
            obtain ⟨p, hp, hxp⟩ := List.mem_flatten.1 hx
            exact Nat.le_of_eq (hzs p hp x hxp)
          · exact Nat.zero_le _)
      (by rw [mpages_initial]; intro p hp; simp at hp) (fun _ => rfl)
      (by rw [mpages_initial]; simp [lastOccupied, occupied, Shape.initial])
    rw [Nat.zero_add, bytesStored_same cs _ hst, Nat.add_zero, Nat.one_mul, ← Nat.sub_mul, ← Nat.mul_assoc] at this
    exact Nat.le_of_mul_le_mul_right this hz
  · rw [Nat.sub_eq_zero_of_le (by omega)]; simp

theorem turnPages_length {n : Nat} (ps : List (List (MSlot K V))) : ps.length ≤ (turnPages n ps).length := by
  unfold turnPages
  split <;> simp <;> omega

theorem storePaged_length {W page n size : Nat} {k : K} {v : V} : ∀ (left : Nat) (ps : List (List (MSlot K V))),
    ps.length ≤ (storePaged W page n size k v left ps).2.length := by
  intro left
  induction left with
  | zero => intro ps; exact Nat.le_refl _
  | succ left ih =>
    intro ps
    rw [storePaged.eq_def]
    simp only
    have h1 := ih (turnPages n ps)
    have h2 := turnPages_length (n := n) ps
    split
    · split
      · simp; omega
      · omega
    · omega

/-- C62. Only stores erase pages, and a store erases each page at most once. -/
theorem only_stores_erase (w : g.WF) (hc : Codes kc vc c) (hn : 2 ≤ g.pageCount) (h : MReached kc vc c g lim s)
    (call : MCall K V (Cache K)) (hu : MUsable g lim c call) :
    (mcall g kc vc call s).2.fl.erases.length ≤ s.fl.erases.length + (match call with | .store _ _ _ => g.pageCount | _ => 0) := by
  obtain ⟨σ, P, h1⟩ := h.mi w hc hn
  have h2 := (mcall_det w hc hn h1 call hu).2
  obtain ⟨t, ht1, ht2⟩ := mcall_count w hc hn h1 call hu
  have h3 := mcall_paged w hc hn h1 call hu
  rw [h1.erases w, h2.erases w]
  rw [← mpages_length (kc := kc) (vc := vc) (g := g) (σ := σ) (P := P),
    ← mpages_length (kc := kc) (vc := vc) (g := g) (σ := (mcallA kc vc g σ P call).2.1) (P := (mcallA kc vc g σ P call).2.2)] at ht2
  cases call with
  | store k v b =>
    simp only
    by_cases hw : Writable g.word g.eraseSize c k v b
    · rw [(h3.1 hw).2, ht1.1 hw] at ht2
      have := storePaged_length (W := g.word) (page := g.eraseSize) (n := g.pageCount) (size := itemSize g.word (c.data k v)) (k := k) (v := v)
        g.pageCount (mpages kc vc g σ P)
      have := storeTurns_le (W := g.word) (page := g.eraseSize) (n := g.pageCount) (size := itemSize g.word (c.data k v))
        g.pageCount (mpages kc vc g σ P)
      omega
    · have h4 := h3.2 hw
      rw [h4, ht1.2 hw] at ht2
      cases hp : mpages kc vc g σ P with
      | nil => rw [hp] at ht2; simp at ht2; omega
      | cons p ps => rw [hp] at ht2; simp at ht2; omega
  | fetch k b => rw [h3.2, (show t = 0 from ht1)] at ht2; simp only; omega
  | fetchAll b steps => rw [h3.2, (show t = 0 from ht1)] at ht2; simp only; omega
  | restart x => rw [(show _ = _ from h3), (show t = 0 from ht1)] at ht2; simp only; omega
  | remove k b => rw [(show _ = _ from h3), (show t = 0 from ht1), List.length_map] at ht2; simp only; omega
  | removeAll b => rw [(show _ = _ from h3), (show t = 0 from ht1), List.length_map] at ht2; simp only; omega

/-- Nine stores of one key, with a fetch and a removal in between. -/
def mturning : List (MCall K2 V4 (Cache K2)) :=
  [.store 1 10 buf48, .store 1 11 buf48, .fetch 1 buf48, .store 1 12 buf48, .store 1 13 buf48, .remove 1 buf48,
   .store 1 14 buf48, .store 1 15 buf48, .store 1 16 buf48, .store 1 17 buf48, .store 1 18 buf48]

theorem mturning_ok : ∀ call ∈ mturning, MUsable geo3 8 (numCoding 2 4) call := by
  intro call h
  simp only [mturning, List.mem_cons, List.not_mem_nil, or_false] at h
  rcases h with rfl | rfl | rfl | rfl | rfl | rfl | rfl | rfl | rfl | rfl | rfl <;> first
    | exact small_usable _ _
    | exact ⟨trivial, trivial, (by decide : 8 ≤ buf48.length)⟩

theorem lastSet_key {k : K} : ∀ (l : List (MCall K V (Cache K) × Except Err (MAnswer K V))) (v : Option V), lastSet k v l ≠ none →
    v ≠ none ∨ ∃ v b r, (MCall.store k v b, r) ∈ l := by
  intro l
  induction l with
  | nil => intro v h; exact Or.inl h
  | cons x l ih =>
    intro v h
    have later : ∀ v', lastSet k v' l ≠ none → (v' ≠ none → v ≠ none ∨ ∃ w b r, (MCall.store k w b, r) ∈ x :: l) →
        v ≠ none ∨ ∃ w b r, (MCall.store k w b, r) ∈ x :: l := by
      intro v' h1 h2
      rcases ih v' h1 with h3 | ⟨w, b, r, h3⟩
      · exact h2 h3
      · exact Or.inr ⟨w, b, r, List.mem_cons_of_mem _ h3⟩
    obtain ⟨call, r⟩ := x
    cases call with
    | store k' v' b =>
      cases r with
      | error e => exact later _ h Or.inl
      | ok r =>
        refine later _ h fun h1 => ?_
        by_cases hk : k = k'
        · subst hk; exact Or.inr ⟨v', b, _, List.mem_cons_self⟩
        · rw [if_neg hk] at h1; exact Or.inl h1
    | remove k' b =>
      cases r with
      | error e => exact later _ h Or.inl
      | ok r =>
        refine later _ h fun h1 => ?_
        by_cases hk : k = k'
        · rw [if_pos hk] at h1; exact absurd rfl h1
        · rw [if_neg hk] at h1; exact Or.inl h1
    | removeAll b =>
      cases r with
      | error e => exact later _ h Or.inl
      | ok r => exact later _ h fun h1 => absurd rfl h1
    | fetch k' b => exact later _ h Or.inl
    | fetchAll b steps => exact later _ h Or.inl
    | restart x => exact later _ h Or.inl

/-- A map holds only keys that were stored. -/
theorem keys_stored (w : g.WF) (hc : Codes kc vc c) (hn : 2 ≤ g.pageCount) (h : MStart g s) {cs : List (MCall K V (Cache K))}
    (hd : ∀ call ∈ cs, MUsable g lim c call) {ks : List K} (hks : ∀ k v b, .store k v b ∈ cs → k ∈ ks) {i : Nat} {m : K → Option V}
    (hm : Fetches kc vc g lim (mrun g kc vc (cs.take i) s).2 m) (k : K) (hk : m k ≠ none) : k ∈ ks := by
  have h1 := hm k (List.replicate lim 0) (by simp)
  rw [fetch_gives_last_stored w hc hn h _ (fun call hx => hd call (List.mem_of_mem_take hx)) k _ (by simp)] at h1
  injection h1 with h1
  injection h1 with h1
  rw [← h1] at hk
  rcases lastSet_key _ _ hk with h2 | ⟨v, b, r, h2⟩
  · exact absurd rfl h2
  · exact hks k v b (List.mem_of_mem_take (List.of_mem_zip h2).1)

theorem small_size (k : K2) (v : V4) : itemSize geo3.word ((numCoding 2 4).data k v) = 16 := by
  have : ((numCoding 2 4).data k v).length = 6 := by simp [Coding.data, numCoding, leBytes_length]
  unfold itemSize; rw [this]; decide

theorem mturning_keys : ∀ k v b, .store k v b ∈ mturning → k ∈ [(1 : K2)] := by
  intro k v b h
  simp only [mturning, List.mem_cons, List.not_mem_nil, or_false, MCall.store.injEq, reduceCtorEq, false_or] at h
  simp only [List.mem_singleton]
  rcases h with ⟨h, _⟩ | ⟨h, _⟩ | ⟨h, _⟩ | ⟨h, _⟩ | ⟨h, _⟩ | ⟨h, _⟩ | ⟨h, _⟩ | ⟨h, _⟩ | ⟨h, _⟩ <;> exact h

/-- Three erases for nine stores. -/
theorem mturning_erases : (mrun geo3 (numKey 2) (numVal 4) mturning blankMap).2.fl.erases = [96, 48, 0] ∧
    storesDone mturning (mrun geo3 (numKey 2) (numVal 4) mturning blankMap).1 = 9 ∧
    bytesStored geo3.word (numCoding 2 4) mturning (mrun geo3 (numKey 2) (numVal 4) mturning blankMap).1 = 144 := by decide +kernel

theorem mturning_one (i : Nat) (m : K2 → Option V4) (hm : Fetches (numKey 2) (numVal 4) geo3 8
    (mrun geo3 (numKey 2) (numVal 4) (mturning.take i) blankMap).2 m) (k : K2) (hk : m k ≠ none) : k ∈ [(1 : K2)] :=
  keys_stored geo3_wf (num_codes 2 4) (by decide) (blank_start _) mturning_ok mturning_keys hm k hk

theorem small_total (m : K2 → Option V4) : (numCoding 2 4).total geo3.word m [1] ≤ 16 := by
  simp only [Coding.total, List.map_cons, List.map_nil, List.sum_cons, List.sum_nil, Nat.add_zero]
  split
  · exact Nat.le_of_eq (small_size _ _)
  · exact Nat.zero_le _

theorem small_fits (k : K2) (v : V4) : 16 + itemSize geo3.word ((numCoding 2 4).data k v) + 2 * geo3.word ≤ geo3.eraseSize := by
  have := small_size k v
  generalize itemSize geo3.word ((numCoding 2 4).data k v) = x at this
  subst this
  decide

/-- Two of the items fit on a page: every erase needs a store. -/
example : (mrun geo3 (numKey 2) (numVal 4) mturning blankMap).2.fl.erases.length * ((geo3.eraseSize - 2 * geo3.word) / 16 - 1) ≤
    storesDone mturning (mrun geo3 (numKey 2) (numVal 4) mturning blankMap).1 :=
  map_erases_once_per_page (kc := numKey 2) (vc := numVal 4) (c := numCoding 2 4) (lim := 8) (z := 16) (q := 1) (by decide) geo3_wf
    (num_codes 2 4) (by decide) (blank_start _) mturning mturning_ok (fun i m hm => ⟨[1], mturning_one i m hm, Nat.le_refl _⟩)
    (fun k v _ _ => small_size k v)

seal mrun in
example : (mrun geo3 (numKey 2) (numVal 4) mturning blankMap).2.fl.erases.length * (geo3.eraseSize - 2 * geo3.word - 16) ≤
    2 * bytesStored geo3.word (numCoding 2 4) mturning (mrun geo3 (numKey 2) (numVal 4) mturning blankMap).1 :=
  map_erases_little (kc := numKey 2) (vc := numVal 4) (c := numCoding 2 4) (lim := 8) (L := 16) geo3_wf (num_codes 2 4) (by decide)
    (blank_start _) mturning mturning_ok (fun i m hm => ⟨[1], mturning_one i m hm, small_total m⟩) (fun k v _ _ _ => small_fits k v)

/-- The run as counted. -/
example : ∃ ps, Runs (mapEraseStep geo3.word geo3.eraseSize geo3.pageCount (numCoding 2 4)) ([], 0) mturning
    (mrun geo3 (numKey 2) (numVal 4) mturning blankMap).1 (ps, (mrun geo3 (numKey 2) (numVal 4) mturning blankMap).2.fl.erases.length) :=
  map_counts_its_erases (lim := 8) geo3_wf (num_codes 2 4) (by decide) (blank_start _) mturning mturning_ok

/-- Two pages that are full of items that count. -/
def mfour : St K2 := (mrun geo3 (numKey 2) (numVal 4) fourStores blankMap).2

theorem refused_store_erases : (mcall geo3 (numKey 2) (numVal 4) (.store (5 : K2) (50 : V4) buf48) mfour).1 = .error .fullStorage ∧
    (mcall geo3 (numKey 2) (numVal 4) (.store 5 50 buf48) mfour).2.fl.erases.length = mfour.fl.erases.length + geo3.pageCount := by decide +kernel

/-- The bound on one store is met by stores that are refused: each one moves every page, and erases as many as there
are pages, though nothing changes for the user. -/
theorem refused_store_wears : MReached (numKey 2) (numVal 4) (numCoding 2 4) geo3 8 mfour ∧
    (mcall geo3 (numKey 2) (numVal 4) (.store (5 : K2) (50 : V4) buf48) mfour).1 = .error .fullStorage ∧
    (mcall geo3 (numKey 2) (numVal 4) (.store 5 50 buf48) mfour).2.fl.erases.length = mfour.fl.erases.length + geo3.pageCount :=
  ⟨⟨blankMap, fourStores, blank_start _, fourStores_ok, rfl⟩, refused_store_erases⟩

end SeqStorage.Props
