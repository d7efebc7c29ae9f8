import Verif.Proofs.MapPaged
import Verif.Props.MapCache
/-
When a store is refused, and how much a map holds: C53.
-/

set_option linter.unusedSectionVars false

namespace SeqStorage.Props
open SeqStorage Spec M Codec

variable {K V : Type} [DecidableEq K] {kc : KeyCodec K} {vc : ValCodec V} {c : Coding K V} {g : Geo} {s : St K} {lim : Nat}

/-- C53. The answers of a map on a fresh region are those of a list of pages that are filled one after the other, and
of which the oldest one is compacted onto a new one when only one is left. In particular they say when a store is
refused, and what an iterator shows. -/
theorem map_fills_its_pages (w : g.WF) (hc : Codes kc vc c) (hn : 2 ≤ g.pageCount) (h : MStart g s) (cs : List (MCall K V (Cache K)))
    (hd : ∀ call ∈ cs, MUsable g lim c call) :
    ∃ ps, Runs (fun ps call r ps' => mapStep g.word g.eraseSize lim c (valueIn ps.flatten) call r (valueIn ps'.flatten) ∧
        mapPagedStep g.word g.eraseSize g.pageCount c ps call r ps') [] cs (mrun g kc vc cs s).1 ps ∧
      Fetches kc vc g lim (mrun g kc vc cs s).2 (valueIn ps.flatten) := by
  obtain ⟨σ, P, h1, h2⟩ := mrun_paged w hc hn cs (h.mi w hn) hd
  exact ⟨_, h2, (h1.have hc.lawful).fetches w hc hn rfl rfl⟩

/-- The pages are known after every call. -/
theorem mapPagedStep_det {ρ : Type} {W page n : Nat} {ps ps1 ps2 : List (List (MSlot K V))} {call : MCall K V ρ}
    {r : Except Err (MAnswer K V)} (h1 : mapPagedStep W page n c ps call r ps1) (h2 : mapPagedStep W page n c ps call r ps2) : ps1 = ps2 := by
  cases call with
  | store k v b =>
    by_cases hw : Writable W page c k v b
    · rw [(h1.1 hw).2, (h2.1 hw).2]
    · rw [h1.2 hw, h2.2 hw]
  | fetch k b => rw [h1.2, h2.2]
  | fetchAll b steps => rw [h1.2, h2.2]
  | remove k b => exact Eq.trans h1 (Eq.symm h2)
  | removeAll b => exact Eq.trans h1 (Eq.symm h2)
  | restart r => exact Eq.trans h1 (Eq.symm h2)

theorem Runs.det {C R S : Type} {step step' : S → C → R → S → Prop} (hs : ∀ q c r q1 q2, step q c r q1 → step' q c r q2 → q1 = q2) :
    ∀ {cs : List C} {rs : List R} {q q1 q2 : S}, Runs step q cs rs q1 → Runs step' q cs rs q2 → q1 = q2 := by
  intro cs
  induction cs with
  | nil => intro rs q q1 q2 h1 h2; rw [h1.2, h2.2]
  | cons c cs ih =>
    intro rs q q1 q2 h1 h2
    obtain ⟨r, rs', p1, rfl, h3, h4⟩ := h1
    obtain ⟨r', rs'', p2, he, h5, h6⟩ := h2
    simp only [List.cons.injEq] at he
    obtain ⟨rfl, rfl⟩ := he
    rw [hs _ _ _ _ _ h3 h5] at h4
    exact ih h4 h6

/-- C53. A store is refused for lack of space if all pages but one are in use, the new item does not fit behind the
last one, and of no page what still counts leaves room for it. Only then. -/
theorem store_refused_iff (w : g.WF) (hc : Codes kc vc c) (hn : 2 ≤ g.pageCount) (h : MStart g s) (cs : List (MCall K V (Cache K)))
    (hd : ∀ call ∈ cs, MUsable g lim c call) {ps : List (List (MSlot K V))}
    (hps : Runs (mapPagedStep g.word g.eraseSize g.pageCount c) [] cs (mrun g kc vc cs s).1 ps) (k : K) (v : V) (b : List Byte)
    (hu : MUsable g lim c (.store k v b)) (hw : Writable g.word g.eraseSize c k v b) :
    (mcall g kc vc (.store k v b) (mrun g kc vc cs s).2).1 = .error .fullStorage ↔
      ps.length + 1 = g.pageCount ∧ LastFull g.word g.eraseSize (itemSize g.word (c.data k v)) ps ∧
      ∀ p ∈ currents ps, ¬ HasRoom g.word g.eraseSize (itemSize g.word (c.data k v)) p := by
  obtain ⟨σ, P, h1, h2⟩ := mrun_paged w hc hn cs (h.mi w hn) hd
  obtain rfl : mpages kc vc g σ P = ps := Runs.det (fun _ _ _ _ _ ha hb => mapPagedStep_det ha.2 hb) h2 hps
  have h3 := (mcall_paged w hc hn h1 (.store k v b) hu).1 hw
  rw [(mcall_det w hc hn h1 (.store k v b) hu).1, h3.1]
  have hm : (mpages kc vc g σ P).length < g.pageCount := by
    obtain ⟨_, _, hse⟩ := h1
    rw [mpages_length]; exact (hse rfl).1
  rw [← storePaged_refused (k := k) (v := v) hn hm hw.2.2.2]
  cases (storePaged g.word g.eraseSize g.pageCount (itemSize g.word (c.data k v)) k v g.pageCount (mpages kc vc g σ P)).1 <;> simp

/-- C53. With `n` pages a store succeeds as long as what is stored leaves `n - 1` times the size of the new item free
of `n - 1` pages. -/
theorem store_succeeds_with_room (w : g.WF) (hc : Codes kc vc c) (hn : 2 ≤ g.pageCount) (h : MReached kc vc c g lim s) (m : K → Option V)
    (hm : Fetches kc vc g lim s m) (k : K) (v : V) (b : List Byte) (hb : lim ≤ b.length)
    (hfit : pad g.word (c.data k v).length ≤ lim) (hw : Writable g.word g.eraseSize c k v b) (ks : List K)
    (hks : ∀ k', m k' ≠ none → k' ∈ ks)
    (hroom : c.total g.word m ks + (g.pageCount - 1) * (itemSize g.word (c.data k v) + 2 * g.word) ≤ (g.pageCount - 1) * g.eraseSize) :
    (mcall g kc vc (.store k v b) s).1 = .ok .done := by
  obtain ⟨σ, P, h1⟩ := h.mi w hc hn
  obtain rfl := hm.unique ((h1.have hc.lawful).fetches w hc hn rfl rfl)
  have hu : MUsable g lim c (.store k v b) := ⟨trivial, fun _ => hfit, hb⟩
  have h3 := (mcall_paged w hc hn h1 (.store k v b) hu).1 hw
  rw [(mcall_det w hc hn h1 (.store k v b) hu).1, h3.1]
  obtain ⟨_, h2, hse⟩ := h1
  have hlen : (mpages kc vc g σ P).length < g.pageCount := by rw [mpages_length]; exact (hse rfl).1
  cases hr : (storePaged g.word g.eraseSize g.pageCount (itemSize g.word (c.data k v)) k v g.pageCount (mpages kc vc g σ P)).1 with
  | true => rfl
  | false =>
    exfalso
    obtain ⟨h4, _, h5⟩ := (storePaged_refused hn hlen hw.2.2.2).1 hr
    have h6 := full_total _ h5
    have h7 := currents_total (mpages_sized w hc h2) ks hks
    rw [currents_length] at h6
    have h8 : (mpages kc vc g σ P).length = g.pageCount - 1 := by omega
    rw [h8, Nat.mul_succ] at h6
    omega

theorem small_writable (k : K2) (v : V4) : Writable geo3.word geo3.eraseSize (numCoding 2 4) k v buf48 :=
  ⟨by simp [numCoding], by
    show ((numCoding 2 4).data k v).length ≤ 48
    simp [Coding.data, numCoding, leBytes_length], by
    have : ((numCoding 2 4).data k v).length = 6 := by simp [Coding.data, numCoding, leBytes_length]
    unfold FitsPage itemSize
    rw [this]
    decide⟩

theorem small_usable (k : K2) (v : V4) : MUsable geo3 8 (numCoding 2 4) (.store k v buf48) :=
  ⟨trivial, fun _ => by
    have : ((numCoding 2 4).data k v).length = 6 := by simp [Coding.data, numCoding, leBytes_length]
    rw [this]; decide, (by decide : 8 ≤ buf48.length)⟩

/-- Four items of 16 bytes on two pages with room for 40 bytes each. -/
def fourStores : List (MCall K2 V4 (Cache K2)) := [.store 1 10 buf48, .store 2 20 buf48, .store 3 30 buf48, .store 4 40 buf48]

def fourPages : List (List (MSlot K2 V4)) :=
  [[(16, some (1, 10)), (16, some (2, 20))], [(16, some (3, 30)), (16, some (4, 40))]]

theorem fourStores_ok : ∀ call ∈ fourStores, MUsable geo3 8 (numCoding 2 4) call := by
  intro call h
  simp only [fourStores, List.mem_cons, List.not_mem_nil, or_false] at h
  rcases h with rfl | rfl | rfl | rfl <;> exact small_usable _ _

theorem fourStores_run : Runs (mapPagedStep geo3.word geo3.eraseSize geo3.pageCount (numCoding 2 4)) [] fourStores
    (mrun geo3 (numKey 2) (numVal 4) fourStores blankMap).1 fourPages := by
  have h : (mrun geo3 (numKey 2) (numVal 4) fourStores blankMap).1 = List.replicate 4 (.ok .done) := by decide +kernel
  rw [h]
  refine ⟨_, _, [[(16, some (1, 10))]], rfl, ⟨fun _ => ?_, fun hx => absurd (small_writable _ _) hx⟩, ?_⟩
  · decide +kernel
  refine ⟨_, _, [[(16, some (1, 10)), (16, some (2, 20))]], rfl, ⟨fun _ => ?_, fun hx => absurd (small_writable _ _) hx⟩, ?_⟩
  · decide +kernel
  refine ⟨_, _, [[(16, some (1, 10)), (16, some (2, 20))], [(16, some (3, 30))]], rfl,
    ⟨fun _ => ?_, fun hx => absurd (small_writable _ _) hx⟩, ?_⟩
  · decide +kernel
  refine ⟨_, _, fourPages, rfl, ⟨fun _ => ?_, fun hx => absurd (small_writable _ _) hx⟩, rfl, rfl⟩
  · decide +kernel

/-- A fifth item is refused, a new value for one of the four as well. -/
example (k : K2) : (mcall geo3 (numKey 2) (numVal 4) (.store k 50 buf48) (mrun geo3 (numKey 2) (numVal 4) fourStores blankMap).2).1 =
    .error .fullStorage := by
  rw [store_refused_iff geo3_wf (num_codes 2 4) (by decide) (blank_start _) fourStores fourStores_ok fourStores_run k 50 buf48
    (small_usable _ _) (small_writable _ _)]
  have : itemSize geo3.word ((numCoding 2 4).data k 50) = 16 := by
    have : ((numCoding 2 4).data k 50).length = 6 := by simp [Coding.data, numCoding, leBytes_length]
    unfold itemSize; rw [this]; decide
  rw [this]
  refine ⟨rfl, ?_, by decide +kernel⟩
  intro p hp
  have : p = [(16, some (3, 30)), (16, some (4, 40))] := by simpa [fourPages] using hp.symm
  rw [this]; decide

/-- Three items leave room for a fourth one, wherever they are. -/
example : (mcall geo3 (numKey 2) (numVal 4) (.store 4 40 buf48) mst).1 = .ok .done := by
  have hm : Fetches (numKey 2) (numVal 4) geo3 8 mst
      (put (put (put (fun _ => none) (2 : K2) (some (20 : V4))) 3 (some 31)) 1 (some 15)) := by
    intro k b hb
    rw [mst, fetch_gives_last_stored geo3_wf (num_codes 2 4) (by decide) (blank_start _) mcalls mcalls_ok k b hb]
    have : (mrun geo3 (numKey 2) (numVal 4) mcalls blankMap).1 = List.replicate 11 (.ok .done) := by decide +kernel
    rw [this]
    simp only [mcalls, List.replicate, List.zip_cons_cons, List.zip_nil_left, lastSet, put]
    by_cases h1 : k = 1#16
    · simp [h1]
    · by_cases h2 : k = 2#16
      · simp [h2]
      · by_cases h3 : k = 3#16
        · simp [h3]
        · simp [h1, h2, h3]
  refine store_succeeds_with_room geo3_wf (num_codes 2 4) (by decide) mst_reached _ hm 4 40 buf48 (by decide) (by decide)
    (small_writable _ _) [1, 2, 3] ?_ (by decide)
  intro k hk
  unfold put at hk
  split at hk
  · simp [*]
  · split at hk
    · simp [*]
    · split at hk
      · simp [*]
      · exact absurd rfl hk

/-- The bound is sharp: with one item more there is no room. -/
example : (mcall geo3 (numKey 2) (numVal 4) (.store 5 50 buf48) mfull).1 = .error .fullStorage ∧
    (numCoding 2 4).total geo3.word (valueIn fourPages.flatten) [1, 2, 3, 4] + 2 * (16 + 2 * geo3.word) = 2 * geo3.eraseSize + 16 := by decide +kernel

/-- Two small items that are left on a page each. -/
def apart : List (MCall K2 VB (Cache K2)) :=
  [.store 1 (vb [1, 1]) buf48, .store 3 (vb (List.replicate 18 3)) buf48, .store 2 (vb [2, 2]) buf48,
   .store 3 (vb (List.replicate 18 4)) buf48, .remove 3 buf48]

/-- What is stored and a new item would fit on two pages, but items from different pages are never put together on
one page, and the store is refused on three pages. If the two small items are stored once more, so that they are on the
same page, it succeeds. -/
theorem refused_though_it_fits :
    (mrun geo3 (numKey 2) (bytesVal none) (apart ++ [.store 4 (vb (List.replicate 30 4)) buf48]) blankMap).1 =
      List.replicate 5 (.ok .done) ++ [.error .fullStorage] ∧
    (mrun geo3 (numKey 2) (bytesVal none)
      (apart ++ [.store 1 (vb [1, 1]) buf48, .store 2 (vb [2, 2]) buf48, .store 4 (vb (List.replicate 30 4)) buf48]) blankMap).1 =
      List.replicate 8 (.ok .done) := by decide +kernel

end SeqStorage.Props
