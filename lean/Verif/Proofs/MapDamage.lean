import Verif.Proofs.Damage
import Verif.Proofs.MapUse
/-
The map when bytes of stored items change by themselves.
-/

namespace SeqStorage
open M Spec

variable {K V : Type} [DecidableEq K] {kc : KeyCodec K} {vc : ValCodec V} {c : Coding K V}
variable {md : Mode} {g : Geo} {big : Bool} {lim : Nat} {σ : Shape} {P : Nat → PK} {F : K → Prop}

/-! ### Another condition on the stored data -/

/-- The mode with another condition on stored data. -/
abbrev Mode.withWas (md : Mode) (A : List Byte → Prop) : Mode := ⟨md.cf, md.np, md.lim, A, md.dmg⟩

omit [DecidableEq K] in
theorem Used.withWas {fl : Flash} {i : Nat} {closed : Bool} {its : List It} {f : Nat} (u : Used md g fl i closed its f) (hcf : md.cf = true) (A : List Byte → Prop) :
    Used (md.withWas A) g fl i closed its f :=
  ⟨u.layout, u.startC, u.startZ, u.endC, u.endZ, u.endF, u.fresh, u.freshW, u.counts, u.np, u.fit,
    fun h => (by rw [hcf] at h; simp at h), fun h => (by rw [hcf] at h; simp at h), u.pads⟩

theorem PageIs.withWas {fl : Flash} {i : Nat} {pk : PK} (h : PageIs md g fl i pk) (hcf : md.cf = true) (A : List Byte → Prop) :
    PageIs (md.withWas A) g fl i pk := by
  cases pk with
  | used c its f => exact Used.withWas h hcf A
  | blank => exact h
  | corr => exact h
  | junk => exact h

theorem FS.withWas {fl : Flash} (h : FS md g fl σ P) (hcf : md.cf = true) (A : List Byte → Prop) : FS (md.withWas A) g fl σ P :=
  ⟨fun i hi => (h.pages i hi).withWas hcf A, h.fuel, h.wf, h.st, h.peak, h.faults, h.stuck⟩

theorem MG.withWas {s : St K} (h : MG kc vc md g big s σ P F) (hcf : md.cf = true) (A : List Byte → Prop)
    (hA : ∀ it ∈ icontent g.pageCount σ P, it.present = true → A it.data) : MG kc vc (md.withWas A) g big s σ P F :=
  ⟨⟨h.good.fs.withWas hcf A, h.good.ps, h.good.pp⟩,
    ⟨h.mp.nojunk, h.mp.shape, h.mp.corr, h.mp.enc, fun it hi hp => ⟨fun h => (by rw [hcf] at h; simp at h), hA it hi hp⟩, h.mp.dup⟩,
    h.kpok, h.kp, h.log⟩

/-! ### Entries -/

/-- The present items are these entries. -/
def Entries (c : Coding K V) (its : List It) (l : List (Nat × K × V)) : Prop :=
  (its.filter It.present).map It.pair = itemsOf c l ∧ ∀ e ∈ l, c.key e.2.1 ≠ none

omit [DecidableEq K] in
theorem Codes.data_inj (hc : Codes kc vc c) {k k' : K} {v v' : V} (hk : c.key k ≠ none) (hk' : c.key k' ≠ none)
    (h : c.data k v = c.data k' v') : k = k' ∧ v = v' := by
  obtain ⟨kb, hkb⟩ := Option.ne_none_iff_exists'.1 hk
  obtain ⟨kb', hkb'⟩ := Option.ne_none_iff_exists'.1 hk'
  have e : c.data k v = kb ++ c.val v := by unfold Coding.data; rw [hkb]; rfl
  have e' : c.data k' v' = kb' ++ c.val v' := by unfold Coding.data; rw [hkb']; rfl
  rw [e, e'] at h
  have h1 := (hc.de k kb (c.val v) hkb).1
  have h2 := (hc.de k' kb' (c.val v') hkb').1
  rw [h, h2] at h1
  simp only [Except.ok.injEq, Prod.mk.injEq] at h1
  obtain ⟨rfl, hl⟩ := h1
  refine ⟨rfl, ?_⟩
  have h3 := (List.append_inj' h (by
    have := congrArg List.length h
    simp only [List.length_append] at this
    omega)).2
  obtain ⟨m, h4⟩ := hc.vde v
  obtain ⟨m', h5⟩ := hc.vde v'
  rw [h3, h5] at h4
  simp only [Except.ok.injEq, Prod.mk.injEq] at h4
  exact h4.1.symm

theorem Codes.entry (hc : Codes kc vc c) {d : List Byte} {k : K} {v : V} (he : Enc kc vc d k v) : d = c.data k v ∧ c.key k ≠ none := by
  refine ⟨hc.enc he, ?_⟩
  obtain ⟨n, m, kb, vb, h1, _⟩ := he
  rw [(hc.key_ok h1).1]; simp

theorem entries_of (hc : Codes kc vc c) : ∀ its : List It, (∀ it ∈ its, it.present = true → ∃ k v, Enc kc vc it.data k v) →
    ∃ l, Entries c its l := by
  intro its
  induction its with
  | nil => intro _; exact ⟨[], rfl, by simp⟩
  | cons it its ih =>
    intro h
    obtain ⟨l, h1, h2⟩ := ih (fun x hx => h x (by simp [hx]))
    cases hp : it.present with
    | false => exact ⟨l, by rw [List.filter_cons_of_neg (by simp [hp])]; exact h1, h2⟩
    | true =>
      obtain ⟨k, v, he⟩ := h it (by simp) hp
      obtain ⟨h3, h4⟩ := hc.entry he
      refine ⟨(it.addr, k, v) :: l, ?_, ?_⟩
      · rw [List.filter_cons_of_pos (by simp [hp]), List.map_cons, h1]
        unfold itemsOf It.pair
        rw [List.map_cons, h3]
      · intro e he
        rcases List.mem_cons.1 he with rfl | he
        · exact h4
        · exact h2 e he

theorem shown_entries (hc : Codes kc vc c) : ∀ (its : List It) (l : List (Nat × K × V)), Entries c its l →
    shown kc vc its = l.map (·.2) := by
  intro its
  induction its with
  | nil =>
    intro l h
    obtain ⟨h1, _⟩ := h
    cases l with
    | nil => rfl
    | cons e l => simp [itemsOf] at h1
  | cons it its ih =>
    intro l h
    obtain ⟨h1, h2⟩ := h
    cases hp : it.present with
    | false =>
      rw [List.filter_cons_of_neg (by simp [hp])] at h1
      rw [← ih l ⟨h1, h2⟩]
      unfold shown
      rw [List.filterMap_cons, hp]
      rfl
    | true =>
      rw [List.filter_cons_of_pos (by simp [hp]), List.map_cons] at h1
      cases l with
      | nil => simp [itemsOf] at h1
      | cons e l =>
        simp only [itemsOf, List.map_cons, List.cons.injEq] at h1
        obtain ⟨h3, h1⟩ := h1
        have hk := h2 e (by simp)
        obtain ⟨kb, hkb⟩ := Option.ne_none_iff_exists'.1 hk
        have hd : it.data = kb ++ c.val e.2.2 := by
          have : it.data = c.data e.2.1 e.2.2 := congrArg Prod.snd h3
          rw [this]; unfold Coding.data; rw [hkb]; rfl
        have h4 := (hc.de e.2.1 kb (c.val e.2.2) hkb).1
        obtain ⟨m, h5⟩ := hc.vde e.2.2
        rw [shown_cons hp (k := e.2.1) (v := e.2.2) (by unfold keyOf; rw [hd, h4]) (by unfold valOf; rw [hd, h4]; simp [h5]),
          List.map_cons, ih l ⟨h1, fun x hx => h2 x (by simp [hx])⟩]

/-- The map holds these entries, oldest first. -/
def MAt (kc : KeyCodec K) (vc : ValCodec V) (c : Coding K V) (md : Mode) (g : Geo) (s : St K) (l : List (Nat × K × V)) : Prop :=
  ∃ b σ P, MG kc vc md g true { s with buf := b } σ P (fun _ => False) ∧ Settled true g.pageCount σ ∧
    Entries c (icontent g.pageCount σ P) l

theorem MAt.have (hc : Codes kc vc c) {s : St K} {l : List (Nat × K × V)} (h : MAt kc vc c md g s l) :
    MHave kc vc md g true s (fun k => lastOf k (l.map (·.2)), fun _ => False) := by
  obtain ⟨b, σ, P, h, hs, hl⟩ := h
  refine ⟨b, σ, P, h, hs, fun k => ?_⟩
  rw [← lastOf_shown hc.lawful k _ h.mp.enc, shown_entries hc _ _ hl]

theorem MHave.mAt (hc : Codes kc vc c) {s : St K} {m : K → Option V} (h : MHave kc vc md g true s (m, fun _ => False)) :
    ∃ l, MAt kc vc c md g s l ∧ (m = fun k => lastOf k (l.map (·.2))) ∧ ∀ e ∈ l, md.was (c.data e.2.1 e.2.2) := by
  obtain ⟨b, σ, P, h, hs, hm⟩ := h
  obtain ⟨l, hl⟩ := entries_of hc _ h.mp.enc
  refine ⟨l, ⟨b, σ, P, h, hs, hl⟩, ?_, ?_⟩
  · funext k
    rw [← shown_entries hc _ _ hl, lastOf_shown hc.lawful k _ h.mp.enc]
    exact (hm k).symm
  · intro e he
    have : (e.1, c.data e.2.1 e.2.2) ∈ itemsOf c l := List.mem_map.2 ⟨e, he, rfl⟩
    rw [← hl.1] at this
    obtain ⟨it, hit, he⟩ := List.mem_map.1 this
    obtain ⟨hit, hp⟩ := List.mem_filter.1 hit
    have hd : it.data = c.data e.2.1 e.2.2 := congrArg Prod.snd he
    rw [← hd]
    exact (h.mp.nt it hit hp).2

/-- Any stored data is fine. -/
theorem MAt.plain {s : St K} {l : List (Nat × K × V)} (h : MAt kc vc c md g s l) (hcf : md.cf = true) (A : List Byte → Prop)
    (hA : ∀ e ∈ l, A (c.data e.2.1 e.2.2)) : MAt kc vc c (md.withWas A) g s l := by
  obtain ⟨b, σ, P, h, hs, hl⟩ := h
  refine ⟨b, σ, P, h.withWas hcf A (fun it hit hp => ?_), hs, hl⟩
  have : it.pair ∈ (icontent g.pageCount σ P |>.filter It.present).map It.pair := List.mem_map.2 ⟨it, List.mem_filter.2 ⟨hit, hp⟩, rfl⟩
  rw [hl.1] at this
  obtain ⟨e, he, h1⟩ := List.mem_map.1 this
  have hd : c.data e.2.1 e.2.2 = it.data := congrArg Prod.snd h1
  rw [← hd]; exact hA e he

omit [DecidableEq K] in
theorem survivors_itemsOf {W : Nat} {mem' : Nat → Byte} (l : List (Nat × K × V)) :
    survivors W mem' (itemsOf c l) = itemsOf c (survivingEntries c W mem' l) := by
  unfold survivors itemsOf survivingEntries
  rw [List.filter_map]
  rfl

section
variable (w : g.WF)
include w

/-- A call keeps the entries or makes a new one. -/
theorem MAt.call (hc : Codes kc vc c) (hn : 2 ≤ g.pageCount) (hcf : md.cf = true) (hlim : md.lim = some lim) (hnp : md.np = false) {s : St K}
    {l : List (Nat × K × V)} (h : MAt kc vc c md g s l) (hA : md.was = fun _ => True) (call : MCall K V (Cache K)) (hu : MUsable g lim c call) :
    ∃ l', mapStep g.word g.eraseSize lim c (fun k => lastOf k (l.map (·.2))) call (mcall g kc vc call s).1
        (fun k => lastOf k (l'.map (·.2))) ∧
      (∀ e ∈ l', e.2 ∈ l.map (·.2) ∨ ∃ b, call = .store e.2.1 e.2.2 b) ∧ MAt kc vc c md g (mcall g kc vc call s).2 l' := by
  have hkeys : ∀ e ∈ l, c.key e.2.1 ≠ none := by obtain ⟨b, σ, P, _, _, hl⟩ := h; exact hl.2
  let A : List Byte → Prop := fun d =>
    (∃ e ∈ l, d = c.data e.2.1 e.2.2) ∨ ∃ k v b, call = .store k v b ∧ c.key k ≠ none ∧ d = c.data k v
  have h1 := h.plain hcf A (fun e he => Or.inl ⟨e, he, rfl⟩)
  obtain ⟨m', h2, h3⟩ := mcall_plain (md := md.withWas A) w hc hn hcf hlim (h1.have hc) call hu.doc hu.within hu.large (by rw [hnp]; simp) (by
    cases call with
    | store k v b => exact fun hk => Or.inr ⟨k, v, b, rfl, hk, rfl⟩
    | _ => trivial)
  obtain ⟨l', h4, rfl, h5⟩ := h3.mAt hc
  refine ⟨l', h2, fun e he => ?_, ?_⟩
  · have hk : c.key e.2.1 ≠ none := by obtain ⟨b, σ, P, _, _, hl⟩ := h4; exact hl.2 e he
    rcases h5 e he with ⟨e', he', h6⟩ | ⟨k, v, b, hcall, hk', h6⟩
    · obtain ⟨e1, e2⟩ := hc.data_inj hk (hkeys e' he') h6
      exact Or.inl (List.mem_map.2 ⟨e', he', Prod.ext e1.symm e2.symm⟩)
    · obtain ⟨e1, e2⟩ := hc.data_inj hk hk' h6
      exact Or.inr ⟨b, by rw [hcall, e1, e2]⟩
  · have := h4.plain hcf md.was (by rw [hA]; simp)
    exact this

/-- Every item reads the same or has a wrong checksum. -/
theorem Damage.same {fl : Flash} (h : FS md g fl σ P) {mem' : Nat → Byte}
    (H : Damage g.word fl.mem mem' (((icontent g.pageCount σ P).filter It.present).map It.pair)) {it : It}
    (hit : it ∈ icontent g.pageCount σ P) :
    (it.present = true → InFlash g.word mem' it.pair → it.reread g mem' = it) ∧
    (it.reread g mem' = it ∨ (it.reread g mem').present = false) := by
  have hH := Damage.hit w h H
  have hl := item_len w h hit
  have hd := item_dataOf w (mem := mem') hl.1
  have hin : it.present = true → InFlash g.word mem' it.pair → it.reread g mem' = it := by
    intro hp hin
    obtain ⟨h1, h2⟩ := hin
    rw [hd] at h2
    have h3 : word32 mem' it.addr = it.hdr.crc := by
      unfold It.present at hp
      rw [decide_eq_true_eq] at hp
      rw [← hp]; exact h1
    unfold It.reread at h2 ⊢
    unfold word32 at h3
    simp only [It.pair] at h2
    rw [h2, h3]
  refine ⟨hin, ?_⟩
  cases hp : it.present with
  | false => exact Or.inl (Hit.absent w h hH hit hp)
  | true =>
    rcases H.seen it.pair (List.mem_map.2 ⟨it, List.mem_filter.2 ⟨hit, hp⟩, rfl⟩) with h1 | h1
    · exact Or.inl (hin hp h1)
    · right
      unfold It.present
      rw [decide_eq_false_iff_not]
      rw [hd] at h1
      exact fun h => h1 h.symm

omit w [DecidableEq K] in
theorem find_map {p : It → Bool} {r : It → It} {it : It} : ∀ (L : List It), L.find? p = some it → (∀ x ∈ L, p (r x) = true → r x = x) →
    r it = it → (L.map r).find? p = some it := by
  intro L
  induction L with
  | nil => intro h; simp at h
  | cons x L ih =>
    intro h hr hit
    rw [List.find?_cons] at h
    rw [List.map_cons, List.find?_cons]
    cases hp : p x with
    | true =>
      rw [hp] at h
      simp only [Option.some.injEq] at h
      subst h
      rw [hit, hp]
    | false =>
      rw [hp] at h
      cases hp' : p (r x) with
      | true =>
        rw [hr x (by simp) hp', hp] at hp'
        simp at hp'
      | false => exact ih h (fun y hy => hr y (by simp [hy])) hit

omit w in
theorem look_mem {k : K} {its : List It} {it : It} (h : look kc k its = some it) : it ∈ its ∧ it.present = true := by
  unfold look at h
  have h1 := List.mem_of_find?_eq_some h
  have h2 := List.find?_some h
  unfold hits at h2
  rw [Bool.and_eq_true] at h2
  exact ⟨List.mem_reverse.1 h1, h2.1⟩

/-- The newest item of a key stays the newest. -/
theorem look_reread {mem' : Nat → Byte} {fl : Flash} (h : FS md g fl σ P)
    (H : Damage g.word fl.mem mem' (((icontent g.pageCount σ P).filter It.present).map It.pair)) {k : K} {it : It}
    (hl : look kc k (icontent g.pageCount σ P) = some it) (hi : InFlash g.word mem' it.pair) :
    look kc k ((icontent g.pageCount σ P).map (It.reread g mem')) = some it := by
  obtain ⟨hm, hp⟩ := look_mem hl
  unfold look at hl ⊢
  rw [← List.map_reverse]
  refine find_map _ hl ?_ ((Damage.same w h H hm).1 hp hi)
  intro x hx hh
  rcases (Damage.same w h H (List.mem_reverse.1 hx)).2 with h1 | h1
  · exact h1
  · unfold hits at hh
    rw [h1] at hh
    simp at hh

/-- Damage of items that no key of the cache points to. -/
theorem MAt.damage {s : St K} {l : List (Nat × K × V)} (h : MAt kc vc c md g s l) (hW : md.cf = false → 8 ≤ g.word)
    (hnp : md.np = false) (hdm : md.dmg = true) {mem' : Nat → Byte} (H : Damage g.word s.fl.mem mem' (itemsOf c l))
    (hk : ∀ k a, s.cache.kp.location k = some a → ∃ e ∈ survivingEntries c g.word mem' l, e.1 = a) :
    MAt kc vc c md g { s with fl := { s.fl with mem := mem' } } (survivingEntries c g.word mem' l) := by
  obtain ⟨b, σ, P, h, hs, hl⟩ := h
  rw [← hl.1] at H
  have hfs := h.good.fs
  have hsv := Damage.survive w hfs H
  rw [hl.1, survivors_itemsOf, ← icontent_reread] at hsv
  have hsame : ∀ it' ∈ icontent g.pageCount σ (fun i => (P i).reread g mem'), it'.present = true → it' ∈ icontent g.pageCount σ P := by
    intro it' hit' hp'
    rw [icontent_reread] at hit'
    obtain ⟨it, hit, rfl⟩ := List.mem_map.1 hit'
    rcases (Damage.same w hfs H hit).2 with h1 | h1
    · rw [h1]; exact hit
    · rw [h1] at hp'; simp at hp'
  refine ⟨b, σ, fun i => (P i).reread g mem', ⟨h.good.reread w hW hnp hdm (Damage.hit w hfs H), ⟨?_, h.mp.shape, h.mp.corr, ?_, ?_, ?_⟩,
    h.kpok, ?_, h.log⟩, hs, hsv, fun e he => hl.2 e (List.mem_filter.1 he).1⟩
  · intro i hi
    have := h.mp.nojunk i hi
    cases hpk : P i with
    | junk => exact absurd hpk this
    | blank => simp [PK.reread]
    | corr => simp [PK.reread]
    | used c its f => simp [PK.reread]
  · exact fun it hit hp => h.mp.enc it (hsame it hit hp) hp
  · exact fun it hit hp => h.mp.nt it (hsame it hit hp) hp
  · intro hm
    have := (hs rfl).1
    omega
  · intro k a hka
    obtain ⟨it, h1, h2⟩ := h.kp k a hka
    refine ⟨it, ?_, h2⟩
    obtain ⟨e, he, hea⟩ := hk k a hka
    obtain ⟨he, hin⟩ := List.mem_filter.1 he
    rw [decide_eq_true_eq] at hin
    obtain ⟨hm, hp⟩ := look_mem h1
    have hpe : (e.1, c.data e.2.1 e.2.2) ∈ itemsOf c l := List.mem_map.2 ⟨e, he, rfl⟩
    rw [← hl.1] at hpe
    obtain ⟨it', hit', he'⟩ := List.mem_map.1 hpe
    obtain ⟨hit', hp'⟩ := List.mem_filter.1 hit'
    have ha : it'.addr = it.addr := by
      have : it'.addr = e.1 := congrArg Prod.fst he'
      rw [this, hea, h2]
    have hn := Layout.next_gt w it.hdr it.addr
    have hn' := Layout.next_gt w it'.hdr it'.addr
    have hii := covers_unique w hfs hit' hm (z := it.addr) (by omega) (by omega) (by omega) (by omega)
    rw [icontent_reread]
    refine look_reread w hfs H h1 ?_
    rw [← hii, he']; exact hin

/-- Damage and a restart. -/
theorem MAt.damage_restart {s : St K} {l : List (Nat × K × V)} (h : MAt kc vc c md g s l) (hW : md.cf = false → 8 ≤ g.word)
    (hnp : md.np = false) (hdm : md.dmg = true) {mem' : Nat → Byte} (H : Damage g.word s.fl.mem mem' (itemsOf c l)) {cache : Cache K}
    (hca : MapCache g.pageCount cache) :
    MAt kc vc c md g { s with fl := { s.fl with mem := mem' }, cache := cache } (survivingEntries c g.word mem' l) := by
  obtain ⟨b, σ, P, h, hs, hl⟩ := h
  have h1 : MAt kc vc c md g { s with cache := cache } l := ⟨b, σ, P, h.restart hca, hs, hl⟩
  exact h1.damage w hW hnp hdm H (fun k a hk => by rw [hca.kpok.2 k] at hk; simp at hk)

theorem items_placed {fl : Flash} (h : FS md g fl σ P) :
    (∀ p ∈ ((icontent g.pageCount σ P).filter It.present).map It.pair, InFlash g.word fl.mem p ∧ p.2.length ≤ 65535) ∧
    (∀ p ∈ ((icontent g.pageCount σ P).filter It.present).map It.pair, ∀ p' ∈ ((icontent g.pageCount σ P).filter It.present).map It.pair,
      p ≠ p' → p.1 + itemSize g.word p.2 ≤ p'.1 ∨ p'.1 + itemSize g.word p'.2 ≤ p.1) := by
  constructor
  · intro p hp
    obtain ⟨it, hit, rfl⟩ := List.mem_map.1 hp
    obtain ⟨hit, hpr⟩ := List.mem_filter.1 hit
    have hl := item_len w h hit
    refine ⟨item_inFlash w h hit hpr, ?_⟩
    have := it.hdr.len.isLt
    show it.data.length ≤ 65535
    omega
  · intro p hp p' hp' hne
    obtain ⟨it, hit, rfl⟩ := List.mem_map.1 hp
    obtain ⟨hit, hpr⟩ := List.mem_filter.1 hit
    obtain ⟨it', hit', rfl⟩ := List.mem_map.1 hp'
    obtain ⟨hit', hpr'⟩ := List.mem_filter.1 hit'
    have hl := item_len w h hit
    have hl' := item_len w h hit'
    have hn := Layout.next_gt w it.hdr it.addr
    have hn' := Layout.next_gt w it'.hdr it'.addr
    show it.addr + itemSize g.word it.data ≤ it'.addr ∨ it'.addr + itemSize g.word it'.data ≤ it.addr
    rw [hl.2, hl'.2]
    apply Classical.byContradiction
    intro hov
    apply hne
    rw [covers_unique w h hit hit' (z := max it.addr it'.addr) (by omega) (by omega) (by omega) (by omega)]

/-- What is known of the items. -/
theorem MAt.placed {s : St K} {l : List (Nat × K × V)} (h : MAt kc vc c md g s l) :
    (∀ p ∈ itemsOf c l, InFlash g.word s.fl.mem p ∧ p.2.length ≤ 65535) ∧
    (∀ p ∈ itemsOf c l, ∀ p' ∈ itemsOf c l, p ≠ p' → p.1 + itemSize g.word p.2 ≤ p'.1 ∨ p'.1 + itemSize g.word p'.2 ≤ p.1) := by
  obtain ⟨b, σ, P, h, hs, hl⟩ := h
  rw [← hl.1]
  exact items_placed w h.good.fs

/-- A cached location with a damaged item is given up. -/
theorem fetchCached_absent {s : St K} (h : Good md g s σ P) {k : K} {it : It} (hm : it ∈ icontent g.pageCount σ P)
    (hp : it.present = false) (hk : s.cache.kp.location k = some it.addr) (hw : Wide md s.buf.length) :
    ∃ b', b'.length = s.buf.length ∧ Map.fetchCached g k s = (.ok none, { s with buf := b', cache := s.cache.invalidate }) := by
  obtain ⟨j, c, f, hj, hi, hlt, hpk, l, h1, h2, h3⟩ := item_place w h.fs hm
  have ho := page_order w (ringPage g.pageCount σ.o j)
  have hn := Layout.next_gt w it.hdr it.addr
  have hpi : g.pageIndex it.addr = ringPage g.pageCount σ.o j := w.pageIndex_of (by omega) (by omega)
  have hst := page_stop w hlt
  obtain ⟨_, hh, _, _⟩ := l.mem_item w hi
  have hrun := readHeader_run w (e := g.dataEnd (ringPage g.pageCount σ.o j)) s h3 (by omega) (by omega)
  rw [hh] at hrun
  unfold Map.fetchCached
  rw [bind_ok (get_run s)]
  simp only [hk, hpi]
  rw [bind_ok hrun]
  simp only
  rcases (readIt_sat w hlt l (page_short w h.fs hj) (Nat.le_refl _) (w.dataStart_word _) hi).cases with ⟨x, s1, he, hb, hx⟩ | ⟨e, s1, he, hE, _⟩
  · rw [bind_ok he]
    rcases hx with ⟨_, hp', _⟩ | ⟨hx, _⟩
    · rw [hp] at hp'; simp at hp'
    · refine ⟨s1.buf, hb.len, ?_⟩
      have hs1 : { s1 with cache := s1.cache.invalidate } = { s with buf := s1.buf, cache := s.cache.invalidate } := by
        obtain ⟨a1, a2, a3, a4, a5⟩ := hb
        obtain ⟨_, _, _, _, _⟩ := s1
        simp only at a1 a2 a3 a4 a5
        subst a1 a2 a4 a5
        rfl
      rcases hx with rfl | rfl
      · simp only; rw [bind_ok (modifyCache_run _ _), hs1]; rfl
      · simp only; rw [bind_ok (modifyCache_run _ _), hs1]; rfl
  · obtain ⟨n, hl, hle⟩ := hw
    have := hE.len n hl
    omega

/-- Fetching a key whose cached item is damaged goes on with an empty cache. -/
theorem fetchLoc_absent {s : St K} (h : Good md g s σ P) (hkp : KPOk s.cache.kp) {k : K} {it : It} (hm : it ∈ icontent g.pageCount σ P)
    (hp : it.present = false) (hk : s.cache.kp.location k = some it.addr) (hw : Wide md s.buf.length) :
    ∃ b', b'.length = s.buf.length ∧
      Map.fetchLoc g kc k s = Map.fetchLoc g kc k { s with buf := b', cache := s.cache.invalidate } := by
  obtain ⟨hi1, hi2⟩ := hkp.invalidate
  have hloc : ∀ b', Map.fetchCached g k { s with buf := b', cache := s.cache.invalidate } =
      (.ok none, { s with buf := b', cache := s.cache.invalidate }) := by
    intro b'
    unfold Map.fetchCached
    rw [bind_ok (get_run _)]
    have : ({ s with buf := b', cache := s.cache.invalidate } : St K).cache.kp.location k = none := hi2 k
    simp only [this]
    rfl
  have hclean : ∀ b', checkDirty { s with buf := b', cache := s.cache.invalidate } =
      (.ok (), { s with buf := b', cache := s.cache.invalidate }) := by
    intro b'
    rfl
  cases hd : s.cache.dirty with
  | true =>
    refine ⟨s.buf, rfl, ?_⟩
    have hc : checkDirty s = (.ok (), { s with buf := s.buf, cache := s.cache.invalidate }) := by
      unfold checkDirty
      rw [modifyCache_run, hd]
      rfl
    unfold Map.fetchLoc
    rw [bind_ok hc, bind_ok (hclean s.buf)]
  | false =>
    obtain ⟨b', hb, hf⟩ := fetchCached_absent w h hm hp hk hw
    refine ⟨b', hb, ?_⟩
    have hc : checkDirty s = (.ok (), s) := by
      unfold checkDirty
      rw [modifyCache_run, hd]
      rfl
    unfold Map.fetchLoc
    rw [bind_ok hc, bind_ok (hclean b'), bind_ok hf, bind_ok (hloc b')]

/-- Fetching a key whose cached item was damaged. -/
theorem MAt.fetch_stale (hc : Codes kc vc c) (hn : 2 ≤ g.pageCount) (hcf : md.cf = true) (hlim : md.lim = some lim) (hnp : md.np = false) (hdm : md.dmg = true)
    {s : St K} {l : List (Nat × K × V)} (h : MAt kc vc c md g s l) (hA : md.was = fun _ => True) {mem' : Nat → Byte}
    (H : Damage g.word s.fl.mem mem' (itemsOf c l)) {k : K} {a : Nat} (hk : s.cache.kp.location k = some a)
    (ha : ∀ e ∈ survivingEntries c g.word mem' l, e.1 ≠ a) {b : List Byte} (hb : lim ≤ b.length) :
    (mcall g kc vc (.fetch k b) { s with fl := { s.fl with mem := mem' } }).1 =
        .ok (.value (lastOf k ((survivingEntries c g.word mem' l).map (·.2)))) ∧
      ∃ l', (∀ k', lastOf k' (l'.map (·.2)) = lastOf k' ((survivingEntries c g.word mem' l).map (·.2))) ∧
        (∀ e ∈ l', e.2 ∈ (survivingEntries c g.word mem' l).map (·.2)) ∧
        MAt kc vc c md g (mcall g kc vc (.fetch k b) { s with fl := { s.fl with mem := mem' } }).2 l' := by
  have hW : md.cf = false → 8 ≤ g.word := by rw [hcf]; simp
  obtain ⟨b0, σ, P, h, hs, hl⟩ := h
  have h1 : MAt kc vc c md g { s with cache := s.cache.invalidate } l := ⟨b0, σ, P, h.invalid, hs, hl⟩
  have h2 := h1.damage w hW hnp hdm H (fun k a hk => by
    have h3 : s.cache.invalidate.kp.location k = none := (h.kpok.invalidate).2 k
    rw [show s.cache.invalidate.kp.location k = some a from hk] at h3; simp at h3)
  obtain ⟨it, hlook, hia⟩ := h.kp k a hk
  obtain ⟨hm, hp⟩ := look_mem hlook
  have H' := H
  rw [← hl.1] at H'
  have hfs := h.good.fs
  have hgood := h.good.reread w hW hnp hdm (Damage.hit w hfs H')
  have hm' : it.reread g mem' ∈ icontent g.pageCount σ (fun i => (P i).reread g mem') := by
    rw [icontent_reread]; exact List.mem_map.2 ⟨it, hm, rfl⟩
  have hp' : (it.reread g mem').present = false := by
    have hnin : ¬ InFlash g.word mem' it.pair := by
      intro hin
      have hpe : it.pair ∈ itemsOf c l := by rw [← hl.1]; exact List.mem_map.2 ⟨it, List.mem_filter.2 ⟨hm, hp⟩, rfl⟩
      obtain ⟨e, he, h3⟩ := List.mem_map.1 hpe
      refine ha e (List.mem_filter.2 ⟨he, ?_⟩) ?_
      · rw [decide_eq_true_eq, h3]; exact hin
      · rw [← hia]; exact congrArg Prod.fst h3
    rcases H'.seen it.pair (List.mem_map.2 ⟨it, List.mem_filter.2 ⟨hm, hp⟩, rfl⟩) with h3 | h3
    · exact absurd h3 hnin
    · unfold It.present
      rw [decide_eq_false_iff_not]
      rw [item_dataOf w (item_len w hfs hm).1] at h3
      exact fun h => h3 h.symm
  obtain ⟨b', hbl, hrun⟩ := fetchLoc_absent w (kc := kc) (k := k) (s := { s with fl := { s.fl with mem := mem' }, buf := b })
    (md := md) (σ := σ) (P := fun i => (P i).reread g mem') ⟨hgood.fs, hgood.ps, hgood.pp⟩ h.kpok hm' hp'
    (by show s.cache.kp.location k = some it.addr; rw [hk, hia]) ⟨lim, hlim, hb⟩
  have heq : mcall g kc vc (.fetch k b) { s with fl := { s.fl with mem := mem' } } =
      mcall g kc vc (.fetch k b') { s with cache := s.cache.invalidate, fl := { s.fl with mem := mem' } } := by
    have hx : ∀ (s1 s2 : St K), Map.fetchLoc g kc k s1 = Map.fetchLoc g kc k s2 → Map.fetchItem g kc vc k s1 = Map.fetchItem g kc vc k s2 := by
      intro s1 s2 h12
      have hat : M.attempt (Map.fetchLoc g kc k) s1 = M.attempt (Map.fetchLoc g kc k) s2 := by
        unfold M.attempt; rw [h12]
      have hwr : withRepair (Map.fetchLoc g kc k) (Map.tryRepair g kc) s1 = withRepair (Map.fetchLoc g kc k) (Map.tryRepair g kc) s2 := by
        unfold withRepair
        show M.bind _ _ s1 = M.bind _ _ s2
        unfold M.bind
        rw [hat]
      unfold Map.fetchItem
      show M.bind _ _ s1 = M.bind _ _ s2
      unfold M.bind
      rw [hwr]
    have h3 := hx _ _ hrun
    show M.bind _ _ _ = M.bind _ _ _
    unfold M.bind
    show M.bind _ _ _ = M.bind _ _ _
    unfold M.bind
    rw [h3]
  rw [heq]
  obtain ⟨l', h4, h5, h6⟩ := h2.call w hc hn hcf hlim hnp hA (.fetch k b') ⟨trivial, trivial, by
    show lim ≤ b'.length; rw [hbl]; exact hb⟩
  refine ⟨h4.1, l', fun k' => (congrFun h4.2 k' : _), fun e he => ?_, h6⟩
  rcases h5 e he with h7 | ⟨_, h7⟩
  · exact h7
  · simp at h7

end

end SeqStorage
