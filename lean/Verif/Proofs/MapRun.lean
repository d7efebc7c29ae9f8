import Verif.Proofs.MapAll
import Verif.Proofs.QueueUse
import Verif.Model.MapUse
/-
Every call on a map does what the specification says.
-/

set_option linter.unusedSectionVars false

namespace SeqStorage
open M Spec

variable {K V : Type} [DecidableEq K] {kc : KeyCodec K} {vc : ValCodec V} {c : Coding K V}
variable {md : Mode} {g : Geo} {σ : Shape} {P : Nat → PK} {F F' : K → Prop} {big : Bool}

/-- The serializers write the bytes given by `c`, refuse exactly the buffers that are too short for them and the keys
without bytes, and read them back. -/
structure Codes (kc : KeyCodec K) (vc : ValCodec V) (c : Coding K V) : Prop where
  fits : ∀ k n bs, c.key k = some bs → bs.length ≤ n → kc.ser k n = .ok bs
  short : ∀ k n bs, c.key k = some bs → n < bs.length → ∃ e, kc.ser k n = .error e
  refused : ∀ k n, c.key k = none → ∃ e, kc.ser k n = .error e
  de : ∀ k bs rest, c.key k = some bs → kc.de (bs ++ rest) = .ok (k, bs.length) ∧ kc.getLen (bs ++ rest) = .ok bs.length
  vfits : ∀ v n, (c.val v).length ≤ n → vc.ser v n = .ok (c.val v)
  vshort : ∀ v n, n < (c.val v).length → ∃ e, vc.ser v n = .error e
  vde : ∀ v, ∃ m, vc.de (c.val v) = .ok (v, m)

theorem Codes.key_ok (h : Codes kc vc c) {k : K} {n : Nat} {kb : List Byte} (hk : kc.ser k n = .ok kb) :
    c.key k = some kb ∧ kb.length ≤ n := by
  cases hc : c.key k with
  | none => obtain ⟨e, he⟩ := h.refused k n hc; rw [he] at hk; simp at hk
  | some bs =>
    rcases Nat.lt_or_ge n bs.length with hl | hl
    · obtain ⟨e, he⟩ := h.short k n bs hc hl; rw [he] at hk; simp at hk
    · rw [h.fits k n bs hc hl] at hk
      simp only [Except.ok.injEq] at hk
      subst hk
      exact ⟨rfl, hl⟩

theorem Codes.val_ok (h : Codes kc vc c) {v : V} {n : Nat} {vb : List Byte} (hk : vc.ser v n = .ok vb) :
    vb = c.val v ∧ vb.length ≤ n := by
  rcases Nat.lt_or_ge n (c.val v).length with hl | hl
  · obtain ⟨e, he⟩ := h.vshort v n hl; rw [he] at hk; simp at hk
  · rw [h.vfits v n hl] at hk
    simp only [Except.ok.injEq] at hk
    subst hk
    exact ⟨rfl, hl⟩

theorem Codes.lawful (h : Codes kc vc c) : Lawful kc vc := by
  constructor
  · intro k n kb hk
    obtain ⟨h1, h2⟩ := h.key_ok hk
    exact ⟨h2, fun rest => h.de k kb rest h1⟩
  · intro v n vb hv
    obtain ⟨rfl, h2⟩ := h.val_ok hv
    exact ⟨h2, h.vde v⟩

theorem Codes.enc (h : Codes kc vc c) {d : List Byte} {k : K} {v : V} (he : Enc kc vc d k v) : d = c.data k v := by
  obtain ⟨n, m, kb, vb, h1, h2, rfl⟩ := he
  obtain ⟨h3, _⟩ := h.key_ok h1
  obtain ⟨rfl, _⟩ := h.val_ok h2
  unfold Coding.data; rw [h3]; rfl

theorem Codes.encode_ok (h : Codes kc vc c) {k : K} {v : V} {n : Nat} {d : List Byte} (he : encode kc vc k v n = .ok d) :
    d = c.data k v ∧ c.key k ≠ none ∧ d.length ≤ n := by
  unfold encode at he
  cases h1 : kc.ser k n with
  | error e => rw [h1] at he; simp at he
  | ok kb =>
    rw [h1] at he
    simp only at he
    cases h2 : vc.ser v (n - kb.length) with
    | error e => rw [h2] at he; simp at he
    | ok vb =>
      rw [h2] at he
      simp only [Except.ok.injEq] at he
      subst he
      obtain ⟨h3, h4⟩ := h.key_ok h1
      obtain ⟨rfl, h5⟩ := h.val_ok h2
      refine ⟨by unfold Coding.data; rw [h3]; rfl, by rw [h3]; simp, by simp; omega⟩

theorem Codes.encode_err (h : Codes kc vc c) {k : K} {v : V} {n : Nat} {e : SerErr} (he : encode kc vc k v n = .error e) :
    c.key k = none ∨ n < (c.data k v).length := by
  cases hk : c.key k with
  | none => exact Or.inl rfl
  | some kb =>
    right
    have hd : c.data k v = kb ++ c.val v := by unfold Coding.data; rw [hk]; rfl
    rcases Nat.lt_or_ge n (c.data k v).length with hl | hl
    · exact hl
    · rw [hd, List.length_append] at hl
      unfold encode at he
      rw [h.fits k n kb hk (by omega)] at he
      simp only at he
      rw [h.vfits v (n - kb.length) (by omega)] at he
      simp at he

/-! ### What an iterator shows -/

/-- The items an iterator shows. -/
def shown (kc : KeyCodec K) (vc : ValCodec V) (its : List It) : List (K × V) :=
  its.filterMap fun it =>
    if it.present then
      match keyOf kc it, valOf kc vc it with
      | some k, some v => some (k, v)
      | _, _ => none
    else none

theorem shown_append (a b : List It) : shown kc vc (a ++ b) = shown kc vc a ++ shown kc vc b := by
  unfold shown; rw [List.filterMap_append]

theorem shown_absent {a : List It} (h : ∀ it ∈ a, it.present = false) : shown kc vc a = [] := by
  unfold shown
  rw [List.filterMap_eq_nil_iff]
  intro it hi
  rw [h it hi]; rfl

theorem shown_cons {it : It} {k : K} {v : V} (hp : it.present = true) (hk : keyOf kc it = some k) (hv : valOf kc vc it = some v)
    (l : List It) : shown kc vc (it :: l) = (k, v) :: shown kc vc l := by
  unfold shown
  rw [List.filterMap_cons, hp, hk, hv]
  rfl

/-- If the data of all items was stored, so was all that is shown. -/
theorem shown_stored (hc : Codes kc vc c) {R : K → V → Prop} {its : List It}
    (h : ∀ it ∈ its, it.present = true → ∃ k v, c.key k ≠ none ∧ it.data = c.data k v ∧ R k v) :
    ∀ p ∈ shown kc vc its, R p.1 p.2 := by
  intro p hp
  unfold shown at hp
  rw [List.mem_filterMap] at hp
  obtain ⟨it, hi, hp⟩ := hp
  split at hp
  · rename_i hpr
    obtain ⟨k, v, hk, hd, hR⟩ := h it hi hpr
    cases hkb : c.key k with
    | none => exact absurd hkb hk
    | some kb =>
      have hd' : it.data = kb ++ c.val v := by rw [hd]; unfold Coding.data; rw [hkb]; rfl
      have h1 := (hc.de k kb (c.val v) hkb).1
      obtain ⟨m, h2⟩ := hc.vde v
      have e1 : keyOf kc it = some k := by unfold keyOf; rw [hd', h1]
      have e2 : valOf kc vc it = some v := by unfold valOf; rw [hd', h1]; simp [h2]
      rw [e1, e2] at hp
      simp only [Option.some.injEq] at hp
      rw [← hp]; exact hR
  · simp at hp

theorem lastOf_shown (L : Lawful kc vc) (k : K) : ∀ (its : List It), (∀ it ∈ its, it.present = true → ∃ k v, Enc kc vc it.data k v) →
    lastOf k (shown kc vc its) = lookV kc vc k its := by
  intro its
  induction its with
  | nil => intro _; rfl
  | cons it its ih =>
    intro h
    have ih' := ih (fun x hx => h x (by simp [hx]))
    have hval : ∀ x, look kc k its = some x → (lookV kc vc k its).isSome = true := by
      intro x hx
      obtain ⟨h1, h2, h3⟩ := look_some hx
      obtain ⟨k', v, he⟩ := h x (by simp [h1]) h2
      unfold lookV; rw [hx]
      show (valOf kc vc x).isSome = true
      rw [he.valOf L]; rfl
    have e0 : lookV kc vc k (it :: its) = if (look kc k its).isSome then lookV kc vc k its else lookV kc vc k [it] :=
      lookV_append [it] its
    rw [e0]
    cases hp : it.present with
    | false =>
      have : shown kc vc (it :: its) = shown kc vc its := by
        have := shown_append (kc := kc) (vc := vc) [it] its
        rw [List.singleton_append] at this
        rw [this, shown_absent (by intro x hx; simp at hx; rw [hx]; exact hp), List.nil_append]
      rw [this, ih']
      cases hl : look kc k its with
      | some x => simp
      | none =>
        simp only [Option.isSome_none, Bool.false_eq_true, if_false]
        unfold lookV
        rw [hl, look_absent (its := [it]) (by intro x hx; simp at hx; rw [hx]; exact hp)]
    | true =>
      obtain ⟨k', v, he⟩ := h it (by simp) hp
      rw [shown_cons hp (he.keyOf L) (he.valOf L)]
      simp only [lastOf]
      rw [ih']
      cases hl : look kc k its with
      | some x =>
        have := hval x hl
        obtain ⟨y, hy⟩ := Option.isSome_iff_exists.1 this
        rw [hy]; simp
      | none =>
        have : lookV kc vc k its = none := by unfold lookV; rw [hl]; rfl
        rw [this]
        simp only [Option.isSome_none, Bool.false_eq_true, if_false]
        unfold lookV
        rw [look_single]
        unfold hits
        rw [hp, he.keyOf L]
        by_cases hk : k' = k
        · rw [if_pos hk, if_pos (by simp [hk])]
          exact (he.valOf L).symm
        · rw [if_neg hk, if_neg (by simp [hk])]
          rfl

/-! ### The state of a map -/

/-- The map is in order and holds `st`. -/
def MHolds (kc : KeyCodec K) (vc : ValCodec V) (md : Mode) (g : Geo) (big : Bool) (s : St K) (st : (K → Option V) × (K → Prop)) : Prop :=
  ∃ σ P, MG kc vc md g big s σ P st.2 ∧ Settled big g.pageCount σ ∧ ∀ k, lookV kc vc k (icontent g.pageCount σ P) = st.1 k

/-- The flash holds `st`. -/
def MLeft (kc : KeyCodec K) (vc : ValCodec V) (md : Mode) (g : Geo) (s : St K) (st : (K → Option V) × (K → Prop)) : Prop :=
  ∃ σ P, MD kc vc md g s σ P st.2 ∧ ∀ k, lookV kc vc k (icontent g.pageCount σ P) = st.1 k

/-- A new cache that can be used with a map: a key cache must have room for at least one key. -/
structure MapCache (n : Nat) (c : Cache K) : Prop where
  fresh : FreshCache n c
  room : c.kp ≠ .tracked []

theorem MapCache.kpok {n : Nat} {c : Cache K} (h : MapCache n c) : KPOk c.kp ∧ ∀ k, c.kp.location k = none := by
  rcases h.fresh.kp with he | ⟨cap, he⟩
  · rw [he]; exact ⟨Or.inl rfl, fun k => rfl⟩
  · have hcap : 0 < cap := by
      rcases Nat.eq_zero_or_pos cap with h0 | h0
      · have := h.room; rw [he, h0] at this; simp at this
      · exact h0
    rw [he]
    refine ⟨Or.inr ⟨cap, [], hcap, ⟨by simp, by simp⟩, rfl⟩, ?_⟩
    intro k
    have hr := Props.location_tableOf (K := K) cap [] k
    exact hr

theorem MG.setBuf {s : St K} (h : MG kc vc md g big s σ P F) {b : List Byte} (hb : big = true → Wide md b.length) :
    MG kc vc md g big { s with buf := b } σ P F :=
  ⟨⟨h.good.fs, h.good.ps, h.good.pp⟩, h.mp, h.kpok, h.kp, fun h' => ⟨(h.log h').1, (h.log h').2.1, hb h'⟩⟩

/-- Restarting. -/
theorem MG.restart {s : St K} (h : MG kc vc md g big s σ P F) {c : Cache K} (hc : MapCache g.pageCount c) :
    MG kc vc md g big { s with cache := c } σ P F :=
  ⟨⟨h.good.fs, hc.fresh.psOk σ, hc.fresh.ppOk P _⟩, h.mp, hc.kpok.1,
    fun k a hk => (nomatch (hc.kpok.2 k).symm.trans hk), h.log⟩

/-- Starting after a power loss. -/
theorem MD.reboot {s : St K} (h : MD kc vc md g s σ P F) {c : Cache K} (hc : MapCache g.pageCount c) :
    MG kc vc md g false { s with cache := c } σ P F :=
  ⟨⟨h.fs, hc.fresh.psOk σ, hc.fresh.ppOk P _⟩, h.mp, hc.kpok.1,
    fun k a hk => (nomatch (hc.kpok.2 k).symm.trans hk), by simp⟩

theorem MLeft.reboot {s : St K} {st : (K → Option V) × (K → Prop)} (h : MLeft kc vc md g s st) {c : Cache K} (hc : MapCache g.pageCount c) :
    MHolds kc vc md g false { s with cache := c } st := by
  obtain ⟨σ, P, h1, h2⟩ := h
  exact ⟨σ, P, h1.reboot hc, .of_small rfl, h2⟩

/-- Power is back, for a while. -/
theorem MHolds.power {s : St K} {st : (K → Option V) × (K → Prop)} (h : MHolds kc vc md g big s st) (hcf : md.cf = false) (f : Option Nat) :
    MHolds kc vc md g big { s with fl := { s.fl with fuel := f } } st := by
  obtain ⟨σ, P, h, h2⟩ := h
  have hfs : FS md g { s.fl with fuel := f } σ P :=
    ⟨fun i hi => (h.good.fs.pages i hi).fuel f, fun hc => by rw [hcf] at hc; simp at hc, h.good.fs.wf, h.good.fs.st,
      h.good.fs.peak, h.good.fs.faults, h.good.fs.stuck⟩
  exact ⟨σ, P, ⟨⟨hfs, h.good.ps, h.good.pp⟩, h.mp, h.kpok, h.kp, h.log⟩, h2⟩

/-- What is asked of the arguments. -/
def MDocumented (g : Geo) : MCall K V (Cache K) → Prop
  | .restart c => MapCache g.pageCount c
  | _ => True

/-- The call removes nothing. -/
def MHarmless : MCall K V (Cache K) → Prop
  | .remove _ _ | .removeAll _ => False
  | _ => True

/-- Data that is stored is in `D`, and no torn version of it has the same checksum. -/
def MTearProof (D : List Byte → Prop) (c : Coding K V) : MCall K V (Cache K) → Prop
  | .store k v _ => c.key k ≠ none → NoTorn D (c.data k v)
  | _ => True

section
variable (w : g.WF)
include w

/-- An empty map. -/
theorem MG.erased {s : St K} (h : Erased g s.fl) (hf : md.cf = true → s.fl.fuel = none) (hb : big = true → md.cf = true ∧ Wide md s.buf.length)
    (hc : MapCache g.pageCount s.cache) : MG kc vc md g big s .initial (fun _ => .blank) F := by
  have q := FS.erased (md := md) w h hf
  have hn : 0 < g.pageCount := Nat.lt_of_le_of_lt (Nat.zero_le _) q.wf.o_lt
  have hi : icontent g.pageCount Shape.initial (fun _ => PK.blank) = [] := rfl
  refine ⟨⟨q, hc.fresh.psOk _, hc.fresh.ppOk _ _⟩, ⟨fun i _ => by simp, fun _ => rfl, by simp [Shape.initial], ?_, ?_, ?_⟩,
    hc.kpok.1, ?_, ?_⟩
  · rw [hi]; simp
  · rw [hi]; simp
  · intro hm; have : (0 : Nat) = g.pageCount := hm; omega
  · intro k a hk; have h' := hc.kpok.2 k; exact nomatch h'.symm.trans hk
  · intro h'
    refine ⟨(hb h').1, ⟨⟨?_, ?_⟩, ?_⟩, (hb h').2⟩ <;> rw [h.erases] <;> simp [Shape.initial]

theorem MHolds.erased {s : St K} (h : Erased g s.fl) (hf : md.cf = true → s.fl.fuel = none)
    (hb : big = true → md.cf = true ∧ Wide md s.buf.length)
    (hc : MapCache g.pageCount s.cache) (hn : 2 ≤ g.pageCount) : MHolds kc vc md g big s (fun _ => none, fun _ => False) :=
  ⟨_, _, MG.erased w h hf hb hc, fun _ => ⟨by show (0 : Nat) < _; omega, fun _ => rfl⟩, fun _ => rfl⟩

omit w in
/-- The one error of an iterator is that of a small buffer. -/
theorem shows_errs {lim : Nat} : ∀ {steps : List (List Byte)} {todo : List (K × V)} {l : List (Except Err (Option (K × V)))},
    shows lim todo steps l → ∀ e, Except.error e ∈ l → ∃ n, e = .bufferTooSmall n := by
  intro steps
  induction steps with
  | nil => intro todo l h; simp only [shows] at h; subst h; simp
  | cons b steps ih =>
    intro todo l h e he
    simp only [shows] at h
    rcases h with ⟨x, rest, l', rfl, rfl, h⟩ | ⟨rfl, l', rfl, _, h⟩ | ⟨_, n, l', rfl, h⟩
    · simp only [List.mem_cons, reduceCtorEq, false_or] at he
      exact ih h e he
    · simp only [List.mem_cons, reduceCtorEq, false_or] at he
      exact h e he
    · simp only [List.mem_cons, Except.error.injEq] at he
      rcases he with rfl | he
      · exact ⟨n, rfl⟩
      · rcases h with h | ⟨x, rest, _, h⟩
        · exact ih h e he
        · exact ih h e he

/-- All items are among the contents. -/
theorem MG.onPages {s : St K} (h : MG kc vc md g big s σ P F) {l : List It} (hl : OnPages g P l) :
    ∀ it ∈ l, it.present = true → ∃ k v, Enc kc vc it.data k v := by
  intro it hit hp
  obtain ⟨i, hi, hit⟩ := hl it hit
  refine h.mp.enc it ?_ hp
  have wf := h.good.fs.wf
  rcases Nat.lt_or_ge (ringPos g.pageCount σ.o i) σ.m with hm | hm
  · unfold icontent iseg
    refine List.mem_flatMap.2 ⟨ringPos g.pageCount σ.o i, List.mem_range'_1.2 ⟨Nat.zero_le _, by omega⟩, ?_⟩
    rw [ringPage_pos wf.o_lt hi]; exact hit
  · rw [its_unused w h.good.fs hi hm] at hit; simp at hit

omit w in
/-- The answers of an iterator that starts over at the end. -/
def listing (all : List (K × V)) : Nat → List (K × V) → List (Except Err (Option (K × V)))
  | 0, _ => []
  | n + 1, x :: rest => .ok (some x) :: listing all n rest
  | n + 1, [] => .ok none :: listing all n all

/-- Asking an iterator several times. -/
theorem mapSteps_sat (L : Lawful kc vc) {lim : Nat} (hlim : md.lim = some lim) {lm : Option Nat} (hlm : lm = none ∨ lm = md.lim)
    (steps : List (List Byte)) (hb : big = true → ∀ b ∈ steps, Wide md b.length) :
    ∀ {s : St K} {ahead : List It}, MG kc vc md g big s σ P F → ItAt md lm g P s ahead →
    Sat (mapSteps g kc vc steps) s
      (fun l s' => MG kc vc md g big s' σ P F ∧ l.length = steps.length ∧
        (lm = md.lim → (∀ it ∈ ahead, it.present = true → ∃ k v, Enc kc vc it.data k v) →
          shows lim (shown kc vc ahead) steps l ∧
          (big = true → 2 ≤ g.pageCount → σ.m < g.pageCount → StartsAt g σ s.mit.first →
            l = listing (shown kc vc (icontent g.pageCount σ P)) steps.length (shown kc vc ahead))))
      (fun _ _ => False) := by
  induction steps with
  | nil => intro s ahead h _; exact Sat.pure ⟨h, rfl, fun _ _ => ⟨rfl, fun _ _ _ _ => by cases shown kc vc ahead <;> rfl⟩⟩
  | cons b steps ih =>
    intro s ahead h hat
    unfold mapSteps
    refine Sat.bind_eq (setBuf_run b s) ?_
    have h1 := h.setBuf (b := b) (fun h' => hb h' b (by simp))
    refine Sat.bind_eq (attempt_run _ _) ?_
    have hb' := fun h' b' (hm : b' ∈ steps) => hb h' b' (by simp [hm])
    rcases (mapNext_sat w L hlm h1 (ahead := ahead) hat).cases with
      ⟨r, s2, he, h2, q1, q2, m1, q3⟩ | ⟨e, s2, he, h2, q1, q2, m1, sk, it, post, q3, q4, q5, q6⟩
    · rw [he]
      rcases q3 with ⟨rfl, q3, rest, q4, hrest, hre⟩ | ⟨sk, it, post, rfl, q4, q5, q6, q7⟩
      · rcases (ih hb' h2 q4).cases with ⟨l, s3, he3, h3, hl, hsh⟩ | ⟨_, _, _, hF⟩
        · refine Sat.bind_eq he3 (Sat.pure ⟨h3, by simp [hl], fun hle _ => ?_⟩)
          obtain ⟨hs1, hs2⟩ := hsh hle (h2.onPages w hrest)
          refine ⟨?_, fun hbig hn hm hst => ?_⟩
          · simp only [shows]
            exact Or.inr (Or.inl ⟨shown_absent q3, l, rfl, hl, shows_errs hs1⟩)
          · rw [shown_absent q3, List.length_cons, listing, hs2 hbig hn hm (by rw [m1]; exact hst), hre,
              iseg_again w h.good.fs hn hm hst]
        · exact hF.elim
      · rcases (ih hb' h2 q6).cases with ⟨l, s3, he3, h3, hl, hsh⟩ | ⟨_, _, _, hF⟩
        · refine Sat.bind_eq he3 (Sat.pure ⟨h3, by simp [hl], fun hle hall => ?_⟩)
          obtain ⟨k, v, hk, hv, rfl⟩ := q7 (hall it (by simp) q5)
          obtain ⟨hs1, hs2⟩ := hsh hle (fun x hx => hall x (by simp [hx]))
          have hsp : shown kc vc (sk ++ it :: post) = (k, v) :: shown kc vc post := by
            rw [shown_append, shown_absent q4, List.nil_append, shown_cons q5 hk hv]
          refine ⟨?_, fun hbig hn hm hst => ?_⟩
          · simp only [shows]
            exact Or.inl ⟨(k, v), shown kc vc post, l, hsp, rfl, hs1⟩
          · rw [hsp, List.length_cons, listing, hs2 hbig hn hm (by rw [m1]; exact hst)]
        · exact hF.elim
    · rw [he]
      subst q3
      rcases (ih hb' h2 q5).cases with ⟨l, s3, he3, h3, hl, hsh⟩ | ⟨_, _, _, hF⟩
      · refine Sat.bind_eq he3 (Sat.pure ⟨h3, by simp [hl], fun hle hall => ?_⟩)
        rcases q6 with q6 | ⟨q6, q7⟩
        · rw [hle] at q6
          refine ⟨?_, fun hbig => by have := h1.not_small q6; rw [hbig] at this; simp at this⟩
          obtain ⟨n, rfl⟩ := q6.err
          simp only [shows]
          refine Or.inr (Or.inr ⟨q6.len lim hlim, n, l, rfl, ?_⟩)
          have hp := (hsh hle (fun x hx => hall x (by simp [hx]))).1
          rw [shown_append, shown_absent q4, List.nil_append]
          cases hpr : it.present with
          | false =>
            left
            have : shown kc vc (it :: post) = shown kc vc post := by
              have := shown_append (kc := kc) (vc := vc) [it] post
              rw [List.singleton_append] at this
              rw [this, shown_absent (by intro x hx; simp at hx; rw [hx]; exact hpr), List.nil_append]
            rw [this]; exact hp
          | true =>
            right
            obtain ⟨k, v, henc⟩ := hall it (by simp) hpr
            exact ⟨(k, v), shown kc vc post, shown_cons hpr (henc.keyOf L) (henc.valOf L) _, hp⟩
        · exact absurd (hall it (by simp) q6) q7
      · exact hF.elim

omit w in
theorem TooSmall.small {lim : Nat} (hlim : md.lim = some lim) {s : St K} {e : Err} {b : List Byte} (h : TooSmall md { s with buf := b } e) :
    Small lim b ∧ ∃ n, e = .bufferTooSmall n := ⟨h.len lim hlim, h.err⟩

omit w in
theorem wide_of {lim : Nat} (hlim : md.lim = some lim) {b : List Byte} (h : lim ≤ b.length) : Wide md b.length := ⟨lim, hlim, h⟩

omit w in
theorem Drift.fades {a b : List It} {m : K → Option V} (h : Drift kc vc F a b) (hm : ∀ k, lookV kc vc k a = m k) :
    Fades F m (fun k => lookV kc vc k b) := by
  intro k
  rcases h k with h | h
  · exact Or.inl (h.trans (hm k))
  · exact Or.inr h

theorem weight_total {size : K → V → Nat} (hsz : ∀ k v, size k v = (c.data k v).length) (m : K → Option V) (ks : List K) :
    weight g size m ks = c.total g.word m ks := by
  unfold weight Coding.total
  congr 1
  apply List.map_congr_left
  intro k _
  cases m k with
  | none => rfl
  | some v => simp only [hsz]; rfl

theorem roomy_of_fits {m : K → Option V} {k : K} {v : V} (h : FitsOne g.word g.eraseSize c m k v) :
    Roomy g (fun k v => (c.data k v).length) m k v := by
  obtain ⟨ks, h1, h2⟩ := h
  refine ⟨ks, h1, ?_⟩
  rw [weight_total w (c := c) (fun _ _ => rfl)]
  have := pageSize_add w
  have e : itemSize g.word (c.data k v) = g.hl + g.roundUp (c.data k v).length := rfl
  rw [e] at h2
  show c.total g.word m ks + (g.hl + g.roundUp (c.data k v).length) ≤ _
  omega

/-- How a call ends that does not succeed. -/
def MFails (kc : KeyCodec K) (vc : ValCodec V) (md : Mode) (g : Geo) (lim : Nat) (c : Coding K V) (big : Bool) (st : (K → Option V) × (K → Prop))
    (call : MCall K V (Cache K)) (e : Err) (s' : St K) : Prop :=
  (e = .shutoff ∧ md.cf = false ∧ (Spoiled g s'.fl ∨
    ∃ st', mapPowerStep (!md.cf) g.word g.eraseSize lim c st call (.error e) st' ∧ MLeft kc vc md g s' st')) ∨
  (e ≠ .shutoff ∧ ∃ st', mapPowerStep (!md.cf) g.word g.eraseSize lim c st call (.error e) st' ∧ MHolds kc vc md g big s' st')

theorem store_call {lim : Nat} (hlim : md.lim = some lim) (hc : Codes kc vc c) (hn : 2 ≤ g.pageCount) (hmd : md.OK g) {s : St K} {st : (K → Option V) × (K → Prop)}
    (h : MHolds kc vc md g big s st) (k : K) (v : V) (b : List Byte) (hb : big = true → lim ≤ b.length)
    (hw : FitsPage g.word g.eraseSize (c.data k v) → pad g.word (c.data k v).length ≤ lim)
    (ht : c.key k ≠ none → md.Allows g (c.data k v)) :
    Sat (mcall g kc vc (.store k v b)) s
      (fun a s' => ∃ st', mapPowerStep (!md.cf) g.word g.eraseSize lim c st (.store k v b : MCall K V (Cache K)) (.ok a) st' ∧ MHolds kc vc md g big s' st')
      (MFails kc vc md g lim c big st (.store k v b)) := by
  obtain ⟨m, F⟩ := st
  obtain ⟨σ, P, h, hse, hm⟩ := h
  have hm' : (fun k => lookV kc vc k (icontent g.pageCount σ P)) = m := funext hm
  unfold mcall
  refine Sat.bind_eq (setBuf_run b s) ?_
  have h1 := h.setBuf (b := b) (fun h' => wide_of hlim (hb h'))
  have hput : ∀ {its : List It} {σ' : Shape} {P' : Nat → PK}, Put kc vc g its k v σ' P' → ∀ k', lookV kc vc k' (icontent g.pageCount σ' P') =
      put (fun k => lookV kc vc k its) k (some v) k' := fun hp k' => hp.put k'
  rcases (storeItem_sat w hc.lawful hn hmd h1 hse k v (fun d hd hfit => by
      obtain ⟨rfl, hkey, _⟩ := hc.encode_ok hd
      refine ⟨ht hkey, fun n hn => ?_⟩
      rw [hlim, Option.some.injEq] at hn
      rw [← hn]; exact hw ((fitsPage_iff w).2 hfit)) (size := fun k v => (c.data k v).length)
      (fun d k v he => by rw [hc.enc he])).cases with
    ⟨_, s2, he, hl, its, σ', P', h2, hse2, hd, hp, ⟨d, hdd, hfit⟩, -⟩ | ⟨e, s2, he, hl, hE⟩
  · refine Sat.bind_eq he (Sat.pure ⟨(put (fun k => lookV kc vc k its) k (some v), fun _ => False),
      ⟨fun k => lookV kc vc k its, hd.fades hm, Or.inl ⟨?_, rfl, rfl⟩⟩, σ', P', h2, hse2, hput hp⟩)
    obtain ⟨rfl, e2, e3⟩ := hc.encode_ok hdd
    exact ⟨e2, e3, (fitsPage_iff w).2 hfit⟩
  · refine Sat.of_err (bind_err he) ?_
    rcases hE with ⟨hr, σ', P', h2, hse2, hd, -⟩ | ⟨rfl, hcf, hE⟩
    · refine Or.inr ⟨?_, (fun k => lookV kc vc k (icontent g.pageCount σ' P'), F), ⟨_, hd.fades hm, Or.inr (Or.inl ⟨?_, rfl⟩)⟩,
        σ', P', h2, hse2, fun _ => rfl⟩
      · rcases hr with (⟨x, rfl, _⟩ | ⟨rfl, _⟩) | hr | ⟨rfl, _⟩
        · simp
        · simp
        · obtain ⟨n, rfl⟩ := hr.err; simp
        · simp
      · rcases hr with (⟨x, rfl, hx⟩ | ⟨rfl, d, hx, hbig⟩) | hr | ⟨rfl, hx⟩
        · exact Or.inl (Or.inl ⟨hc.encode_err hx, x, rfl⟩)
        · obtain ⟨rfl, e2, e3⟩ := hc.encode_ok hx
          refine Or.inl (Or.inr (Or.inl ⟨e2, e3, ?_, rfl⟩))
          rw [fitsPage_iff w, hbig]; simp
        · obtain ⟨h3, n, rfl⟩ := TooSmall.small hlim hr
          exact Or.inr ⟨h3, n, rfl⟩
        · refine Or.inl (Or.inr (Or.inr ⟨fun hf => hx ?_, rfl⟩))
          rw [hm']
          exact roomy_of_fits w hf
    · refine Or.inl ⟨rfl, hcf, ?_⟩
      rcases hE with hE | ⟨σ', P', h2, hd⟩ | ⟨its, σ', P', h2, hd, hp⟩
      · exact Or.inl hE
      · exact Or.inr ⟨(fun k => lookV kc vc k (icontent g.pageCount σ' P'), F),
          ⟨_, hd.fades hm, Or.inr (Or.inr ⟨by rw [hcf]; rfl, rfl, Or.inl rfl⟩)⟩, σ', P', h2, fun _ => rfl⟩
      · exact Or.inr ⟨(put (fun k => lookV kc vc k its) k (some v), fun _ => False),
          ⟨_, hd.fades hm, Or.inr (Or.inr ⟨by rw [hcf]; rfl, rfl, Or.inr rfl⟩)⟩, σ', P', h2, hput hp⟩

theorem fetch_call {lim : Nat} (hlim : md.lim = some lim) (hc : Codes kc vc c) (hn : 2 ≤ g.pageCount) (hmd : md.OK g) {s : St K} {st : (K → Option V) × (K → Prop)}
    (h : MHolds kc vc md g big s st) (k : K) (b : List Byte) (hb : big = true → lim ≤ b.length) :
    Sat (mcall g kc vc (.fetch k b)) s
      (fun a s' => ∃ st', mapPowerStep (!md.cf) g.word g.eraseSize lim c st (.fetch k b : MCall K V (Cache K)) (.ok a) st' ∧ MHolds kc vc md g big s' st')
      (MFails kc vc md g lim c big st (.fetch k b)) := by
  obtain ⟨m, F⟩ := st
  obtain ⟨σ, P, h, hse, hm⟩ := h
  unfold mcall
  refine Sat.bind_eq (setBuf_run b s) ?_
  have h1 := h.setBuf (b := b) (fun h' => wide_of hlim (hb h'))
  rcases (fetchItem_sat w hc.lawful hn hmd h1 hse k).cases with ⟨r, s2, he, hl, σ', P', h2, hse2, -, hd, rfl⟩ | ⟨e, s2, he, hl, hE⟩
  · exact Sat.bind_eq he (Sat.pure ⟨(fun k => lookV kc vc k (icontent g.pageCount σ' P'), F),
      ⟨_, hd.fades hm, rfl, Or.inl rfl⟩, σ', P', h2, hse2, fun _ => rfl⟩)
  · refine Sat.of_err (bind_err he) ?_
    rcases hE with ⟨hr, σ', P', h2, hse2, hd⟩ | ⟨rfl, hcf, hE⟩
    · obtain ⟨h3, n, rfl⟩ := TooSmall.small hlim hr
      exact Or.inr ⟨by simp, (fun k => lookV kc vc k (icontent g.pageCount σ' P'), F), ⟨_, hd.fades hm, rfl, Or.inr (Or.inl ⟨h3, n, rfl⟩)⟩,
        σ', P', h2, hse2, fun _ => rfl⟩
    · refine Or.inl ⟨rfl, hcf, ?_⟩
      rcases hE with hE | ⟨σ', P', h2, hd⟩
      · exact Or.inl hE
      · exact Or.inr ⟨(fun k => lookV kc vc k (icontent g.pageCount σ' P'), F),
          ⟨_, hd.fades hm, rfl, Or.inr (Or.inr ⟨by rw [hcf]; rfl, rfl⟩)⟩, σ', P', h2, fun _ => rfl⟩

theorem remove_call {lim : Nat} (hlim : md.lim = some lim) (hc : Codes kc vc c) (hn : 2 ≤ g.pageCount) (hmd : md.OK g) (hnp : md.np = false) {s : St K}
    {st : (K → Option V) × (K → Prop)}
    (h : MHolds kc vc md g big s st) (k : K) (b : List Byte) (hb : big = true → lim ≤ b.length) :
    Sat (mcall g kc vc (.remove k b)) s
      (fun a s' => ∃ st', mapPowerStep (!md.cf) g.word g.eraseSize lim c st (.remove k b : MCall K V (Cache K)) (.ok a) st' ∧ MHolds kc vc md g big s' st')
      (MFails kc vc md g lim c big st (.remove k b)) := by
  obtain ⟨m, F⟩ := st
  obtain ⟨σ, P, h, hse, hm⟩ := h
  unfold mcall
  refine Sat.bind_eq (setBuf_run b s) ?_
  have h1 := h.setBuf (b := b) (fun h' => wide_of hlim (hb h'))
  have hT : (fun k' => F k' ∨ Tgt (some k) k') = fun k' => F k' ∨ k' = k := rfl
  rcases (removeCall_sat w hc.lawful hn hmd hnp h1 hse (some k)).cases with
    ⟨_, s2, he, hl, its, σ', P', h2, hse2, -, hd, hk⟩ | ⟨e, s2, he, hl, hE⟩
  · refine Sat.bind_eq he (Sat.pure ⟨(put (fun k => lookV kc vc k its) k none, F), Or.inl ⟨_, hd.fades hm, rfl, rfl⟩,
      σ', P', h2, hse2, fun k' => ?_⟩)
    show lookV kc vc k' _ = if k' = k then none else lookV kc vc k' its
    by_cases hkk : k' = k
    · rw [if_pos hkk]; exact (hk k').1 hkk
    · rw [if_neg hkk]; exact (hk k').2 hkk
  · refine Sat.of_err (bind_err he) ?_
    rw [hT] at hE
    rcases hE with ⟨hr, σ', P', h2, hse2, hd⟩ | ⟨rfl, hcf, hE⟩
    · obtain ⟨h3, n, rfl⟩ := TooSmall.small hlim hr
      exact Or.inr ⟨by simp, (fun k => lookV kc vc k (icontent g.pageCount σ' P'), fun k' => F k' ∨ k' = k),
        Or.inr ⟨_, hd.fades hm, rfl, Or.inl ⟨h3, n, rfl⟩⟩, σ', P', h2, hse2, fun _ => rfl⟩
    · refine Or.inl ⟨rfl, hcf, ?_⟩
      rcases hE with hE | ⟨σ', P', h2, hd⟩
      · exact Or.inl hE
      · exact Or.inr ⟨(fun k => lookV kc vc k (icontent g.pageCount σ' P'), fun k' => F k' ∨ k' = k),
          Or.inr ⟨_, hd.fades hm, rfl, Or.inr ⟨by rw [hcf]; rfl, rfl⟩⟩, σ', P', h2, fun _ => rfl⟩

theorem removeAll_call {lim : Nat} (hlim : md.lim = some lim) (hc : Codes kc vc c) (hn : 2 ≤ g.pageCount) (hmd : md.OK g) (hnp : md.np = false) {s : St K}
    {st : (K → Option V) × (K → Prop)}
    (h : MHolds kc vc md g big s st) (b : List Byte) (hb : big = true → lim ≤ b.length) :
    Sat (mcall g kc vc (.removeAll b)) s
      (fun a s' => ∃ st', mapPowerStep (!md.cf) g.word g.eraseSize lim c st (.removeAll b : MCall K V (Cache K)) (.ok a) st' ∧ MHolds kc vc md g big s' st')
      (MFails kc vc md g lim c big st (.removeAll b)) := by
  obtain ⟨m, F⟩ := st
  obtain ⟨σ, P, h, hse, hm⟩ := h
  unfold mcall
  refine Sat.bind_eq (setBuf_run b s) ?_
  have h1 := h.setBuf (b := b) (fun h' => wide_of hlim (hb h'))
  have hT : (fun k' => F k' ∨ Tgt (none : Option K) k') = fun _ => True := by
    funext k'; simp [Tgt]
  rcases (removeCall_sat w hc.lawful hn hmd hnp h1 hse none).cases with
    ⟨_, s2, he, hl, its, σ', P', h2, hse2, -, hd, hk⟩ | ⟨e, s2, he, hl, hE⟩
  · exact Sat.bind_eq he (Sat.pure ⟨(fun _ => none, F), Or.inl ⟨rfl, rfl⟩, σ', P', h2, hse2, fun k' => (hk k').1 trivial⟩)
  · refine Sat.of_err (bind_err he) ?_
    rw [hT] at hE
    rcases hE with ⟨hr, σ', P', h2, hse2, hd⟩ | ⟨rfl, hcf, hE⟩
    · obtain ⟨h3, n, rfl⟩ := TooSmall.small hlim hr
      exact Or.inr ⟨by simp, (fun k => lookV kc vc k (icontent g.pageCount σ' P'), fun _ => True),
        Or.inr ⟨_, hd.fades hm, rfl, Or.inl ⟨h3, n, rfl⟩⟩, σ', P', h2, hse2, fun _ => rfl⟩
    · refine Or.inl ⟨rfl, hcf, ?_⟩
      rcases hE with hE | ⟨σ', P', h2, hd⟩
      · exact Or.inl hE
      · exact Or.inr ⟨(fun k => lookV kc vc k (icontent g.pageCount σ' P'), fun _ => True),
          Or.inr ⟨_, hd.fades hm, rfl, Or.inr ⟨by rw [hcf]; rfl, rfl⟩⟩, σ', P', h2, fun _ => rfl⟩

theorem fetchAll_call {lim : Nat} (hlim : md.lim = some lim) (hc : Codes kc vc c) (hn : 2 ≤ g.pageCount) {s : St K} {st : (K → Option V) × (K → Prop)}
    (h : MG kc vc md g big s σ P st.2) (hse : Settled big g.pageCount σ)
    (hm : ∀ k, lookV kc vc k (icontent g.pageCount σ P) = st.1 k) (b : List Byte) (steps : List (List Byte))
    (hb : big = true → lim ≤ b.length ∧ ∀ b' ∈ steps, lim ≤ b'.length) :
    Sat (mcall g kc vc (.fetchAll b steps)) s
      (fun a s' => (σ.corr = false → (∀ k, lastOf k (shown kc vc (icontent g.pageCount σ P)) = st.1 k) ∧
          ∃ l, a = .items l ∧ shows lim (shown kc vc (icontent g.pageCount σ P)) steps l) ∧
        MHolds kc vc md g big s' st)
      (fun e s' => e = .corrupted ∧ σ.corr = true ∧ MHolds kc vc md g big s' st) := by
  unfold mcall
  refine Sat.bind_eq (setBuf_run b s) ?_
  have h1 := h.setBuf (b := b) (fun h' => wide_of hlim (hb h').1)
  rcases (fetchAll_sat w h1 hn).cases with ⟨_, s2, he, h2, hfl, _, _, lm, ahead, hlm, hat, hcor⟩ | ⟨e, s2, he, rfl, hcor, h2, _⟩
  · refine Sat.bind_eq he ?_
    rcases (mapSteps_sat w hc.lawful hlim hlm steps (fun h' b' hm => wide_of hlim ((hb h').2 b' hm)) h2 hat).cases with
      ⟨l, s3, he3, h3, _, hsh⟩ | ⟨_, _, _, hF⟩
    · refine Sat.bind_eq he3 (Sat.pure ⟨fun hcorr => ?_, σ, P, h3, hse, hm⟩)
      obtain ⟨hle, rfl⟩ := hcor hcorr
      exact ⟨fun k => by rw [lastOf_shown hc.lawful k _ h.mp.enc]; exact hm k, l, rfl, (hsh hle h.mp.enc).1⟩
    · exact hF.elim
  · exact Sat.of_err (bind_err he) ⟨rfl, hcor, σ, P, h2, hse, hm⟩

/-- All data that is stored has the property. -/
def Stores (was : List Byte → Prop) (c : Coding K V) : MCall K V (Cache K) → Prop
  | .store k v _ => c.key k ≠ none → was (c.data k v)
  | _ => True

omit w in
theorem Stores.all (call : MCall K V (Cache K)) : Stores (fun _ => True) c call := by
  cases call <;> first | trivial | exact fun _ => trivial

/-- Every call. -/
theorem mcall_sat {lim : Nat} (hlim : md.lim = some lim) (hc : Codes kc vc c) (hn : 2 ≤ g.pageCount) (hmd : md.OK g) {s : St K}
    {st : (K → Option V) × (K → Prop)} (h : MHolds kc vc md g big s st) (call : MCall K V (Cache K)) (hd : MDocumented g call)
    (hw : Within g.word g.eraseSize lim c call) (hb : big = true → LargeBuffers lim call) (hnp : md.np = true → MHarmless call)
    (ht : md.cf = false → MTearProof md.was c call) (hs : Stores md.was c call) :
    Sat (mcall g kc vc call) s
      (fun a s' => ∃ st', mapPowerStep (!md.cf) g.word g.eraseSize lim c st call (.ok a) st' ∧ MHolds kc vc md g big s' st')
      (MFails kc vc md g lim c big st call) := by
  have hnp' : ¬ MHarmless call → md.np = false := by
    intro h'
    cases hnp'' : md.np with
    | false => rfl
    | true => exact absurd (hnp hnp'') h'
  cases call with
  | store k v b => exact store_call w hlim hc hn hmd h k v b hb hw (fun h' => ⟨fun h2 => ht h2 h', hs h'⟩)
  | fetch k b => exact fetch_call w hlim hc hn hmd h k b hb
  | remove k b => exact remove_call w hlim hc hn hmd (hnp' (fun h => h)) h k b hb
  | removeAll b => exact removeAll_call w hlim hc hn hmd (hnp' (fun h => h)) h b hb
  | fetchAll b steps =>
    obtain ⟨σ, P, h, hse, hm⟩ := h
    have hcf : (!md.cf) = false → σ.corr = false := fun h' => h.good.fs.torn_free (by simpa using h')
    refine (fetchAll_call w hlim hc hn h hse hm b steps hb).mono ?_ ?_
    · rintro a s' ⟨q1, q2⟩
      refine ⟨st, ⟨rfl, fun hp => ?_⟩, q2⟩
      obtain ⟨q3, l, rfl, q4⟩ := q1 (hcf hp)
      exact ⟨_, l, q3, rfl, q4⟩
    · rintro e s' ⟨rfl, q1, q2⟩
      refine Or.inr ⟨by simp, st, ⟨rfl, fun hp => ?_⟩, q2⟩
      rw [hcf hp] at q1; simp at q1
  | restart r =>
    obtain ⟨σ, P, h, hse, hm⟩ := h
    unfold mcall
    exact Sat.bind_eq (modifyCache_run _ s) (Sat.pure ⟨st, ⟨rfl, rfl⟩, σ, P, h.restart hd, hse, hm⟩)

end

end SeqStorage
