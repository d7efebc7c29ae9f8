import Verif.Proofs.MapInv
/-
Reading the items of a page, and finding the newest item of a key in a page.
-/

set_option linter.unusedSectionVars false

namespace SeqStorage
open M

variable {K V : Type} [DecidableEq K] {kc : KeyCodec K} {vc : ValCodec V}
variable {md : Mode} {g : Geo} {σ : Shape} {P : Nat → PK} {F : K → Prop} {big : Bool}

/-- The buffer is refused. -/
structure TooSmall (md : Mode) (s : St K) (e : Err) : Prop where
  err : ∃ n, e = .bufferTooSmall n
  len : ∀ n, md.lim = some n → s.buf.length < n

theorem TooSmall.of_len {s s' : St K} {e : Err} (h : TooSmall md s' e) (hl : s'.buf.length = s.buf.length) :
    TooSmall md s e := ⟨h.err, by rw [← hl]; exact h.len⟩

theorem Short.sub {a b : List It} (h : Short md g a) (hs : b ⊆ a) : Short md g b := fun n hn it hit => h n hn it (hs hit)

/-- The buffer holds the data of the item. -/
structure Holding (s : St K) (it : It) : Prop where
  len : it.hdr.len.toNat ≤ s.buf.length
  take : s.buf.take it.hdr.len.toNat = it.data

theorem Holding.split {s : St K} {it : It} (h : Holding s it) : s.buf = it.data ++ s.buf.drop it.hdr.len.toNat := by
  rw [← h.take, List.take_append_drop]

theorem Holding.buf {s s' : St K} {it : It} (h : Holding s it) (hb : s'.buf = s.buf) : Holding s' it :=
  ⟨by rw [hb]; exact h.len, by rw [hb]; exact h.take⟩

theorem liftSer_ok {α : Type} {r : Except SerErr α} {a : α} (h : r = .ok a) (s : St K) :
    (Map.liftSer r : M K α) s = (.ok a, s) := by
  subst h; rfl

theorem liftSer_err {α : Type} {r : Except SerErr α} {e : SerErr} (h : r = .error e) (s : St K) :
    (Map.liftSer r : M K α) s = (.error (.serialization e), s) := by
  subst h; rfl

variable (w : g.WF)
include w

theorem page_stop {i : Nat} (hi : i < g.pageCount) : g.dataEnd i ≤ g.stop := by
  have := w.page_le hi
  have := page_order w i
  omega

/-- Reading one of the items. -/
theorem readIt_sat {s : St K} {i a f : Nat} {cf : Bool} {its : List It} (hi : i < g.pageCount)
    (l : Layout cf g s.fl.mem (g.dataEnd i) a its f) (hsh : Short md g its) (ha : g.dataStart i ≤ a) (hd : g.word ∣ a)
    {it : It} (hm : it ∈ its) :
    Sat (readItem g it.hdr it.addr (g.dataEnd i)) s
      (fun r s' => BufOnly s s' ∧ ((r = .present it.hdr ∧ it.present = true ∧ Holding s' it) ∨
        ((r = .erased it.hdr ∨ r = .corrupted it.hdr) ∧ it.present = false)))
      (fun e s' => TooSmall md s e ∧ s' = s ∧ ∃ x ∈ its, e = .bufferTooSmall (g.roundUp x.hdr.len.toNat)) := by
  obtain ⟨h1, h2, h3, h4⟩ := l.mem_item w hm
  have hdv := l.mem_dvd w hd hm
  have ho := page_order w i
  have hfe : f ≤ g.dataEnd i := l.le_end w (by
    have := hdrAt_some_iff.1 h2
    omega) hd
  have hst := page_stop w hi
  have hrun := readItem_run w (e := g.dataEnd i) (h := it.hdr) s hdv (by omega) (by omega) (by omega)
  by_cases hz : it.hdr.crc = 0#32
  · rw [if_pos hz] at hrun
    refine Sat.of_ok hrun ⟨.refl s, Or.inr ⟨Or.inl rfl, ?_⟩⟩
    unfold It.present
    rw [hz]
    exact decide_eq_false (adapted_ne_zero _)
  · rw [if_neg hz] at hrun
    by_cases hb : s.buf.length < g.roundUp it.hdr.len.toNat
    · rw [if_pos hb] at hrun
      exact Sat.of_err hrun ⟨⟨⟨_, rfl⟩, fun n hn => Nat.lt_of_lt_of_le hb (hsh n hn it hm hz)⟩, rfl, it, hm, rfl⟩
    · rw [if_neg hb] at hrun
      refine Sat.of_ok hrun ⟨⟨rfl, rfl, bufAfter_length (by omega), rfl, rfl⟩, ?_⟩
      by_cases hp : Present g s.fl.mem it.addr it.hdr
      · rw [if_pos hp]
        left
        refine ⟨rfl, ?_, ?_, ?_⟩
        · unfold It.present; rw [h4]; exact decide_eq_true (present_iff.1 hp)
        · show it.hdr.len.toNat ≤ (bufAfter g s.fl.mem it.addr it.hdr s.buf).length
          rw [bufAfter_length (by omega)]
          have := w.le_roundUp it.hdr.len.toNat
          omega
        · show (bufAfter g s.fl.mem it.addr it.hdr s.buf).take it.hdr.len.toNat = it.data
          rw [bufAfter_take w, h4]
      · rw [if_neg hp]
        right
        refine ⟨Or.inr rfl, ?_⟩
        unfold It.present; rw [h4]; exact decide_eq_false (fun h => hp (present_iff.2 h))

/-- The next readable item of a page. -/
theorem itemNext_sat {i : Nat} (hi : i < g.pageCount) {cf : Bool} {its : List It} {f : Nat} :
    ∀ {rounds a : Nat} {s : St K}, Layout cf g s.fl.mem (g.dataEnd i) a its f → Short md g its → g.dataStart i ≤ a → g.word ∣ a →
      g.dataEnd i < a + rounds → 0 < rounds →
    Sat (itemNext g (g.dataEnd i) rounds a) s
      (fun r s' => BufOnly s s' ∧
        ((r.1 = none ∧ ∀ it ∈ its, it.present = false) ∨
         ∃ sk it post, its = sk ++ it :: post ∧ (∀ x ∈ sk, x.present = false) ∧ it.present = true ∧
          r = (some (it.hdr, it.addr), it.hdr.next g it.addr) ∧ Holding s' it))
      (fun e s' => TooSmall md s e ∧ BufOnly s s' ∧ ∃ x ∈ its, e = .bufferTooSmall (g.roundUp x.hdr.len.toNat)) := by
  intro rounds
  induction rounds generalizing its with
  | zero => intro a s _ _ _ _ _ h0; omega
  | succ r ih =>
    intro a s l hsh ha hd hr h0
    have hro := rounds_ok w i ha
    have ho := page_order w i
    unfold itemNext
    refine Sat.bind_eq (traverse_run w s l hd (by omega) (page_stop w hi) _ hro.1 hro.2) ?_
    cases its with
    | nil =>
      simp only [scanResult, List.dropWhile_nil]
      exact Sat.pure ⟨.refl s, Or.inl ⟨rfl, by simp⟩⟩
    | cons it post =>
      simp only [scanResult, List.dropWhile_cons, Bool.false_eq_true, if_false]
      have hmi := l.mem_item w (it := it) (by simp)
      have hn := Layout.next_gt w it.hdr it.addr
      have hnd := Layout.next_dvd w (h := it.hdr) (l.mem_dvd w hd (it := it) (by simp))
      have hs : Layout cf g s.fl.mem (g.dataEnd i) (it.hdr.next g it.addr) post f :=
        Layout.suffix (pre := []) w l
      rcases (readIt_sat w hi l hsh ha hd (it := it) (by simp)).cases with ⟨x, s1, he, hb, hx⟩ | ⟨e, s1, he, hE, rfl, hE2⟩
      · refine Sat.bind_eq he ?_
        rcases hx with ⟨rfl, hp, hh⟩ | ⟨hx, hp⟩
        · exact Sat.pure ⟨hb, Or.inr ⟨[], it, post, rfl, by simp, hp, rfl, hh⟩⟩
        · have : Sat (itemNext g (g.dataEnd i) r (it.hdr.next g it.addr)) s1
              (fun r s' => BufOnly s s' ∧
                ((r.1 = none ∧ ∀ x ∈ it :: post, x.present = false) ∨
                ∃ sk x post', it :: post = sk ++ x :: post' ∧ (∀ x ∈ sk, x.present = false) ∧ x.present = true ∧
                  r = (some (x.hdr, x.addr), x.hdr.next g x.addr) ∧ Holding s' x))
              (fun e s' => TooSmall md s e ∧ BufOnly s s' ∧ ∃ x ∈ it :: post, e = .bufferTooSmall (g.roundUp x.hdr.len.toNat)) := by
            have hle : a + 8 ≤ it.hdr.next g it.addr := by omega
            have hr1 : 0 < r ∨ g.dataEnd i < it.hdr.next g it.addr := by omega
            have hfe := hs.le w
            have hfe2 : f ≤ g.dataEnd i := l.le_end w (by
              have := hdrAt_some_iff.1 hmi.2.1
              omega) hd
            refine (ih (s := s1) (by rw [hb.fl]; exact hs) (hsh.sub (by simp)) (by omega) hnd (by omega) (by omega)).mono ?_ ?_
            · rintro r s' ⟨h1, h2⟩
              refine ⟨hb.trans h1, ?_⟩
              rcases h2 with ⟨h2, h3⟩ | ⟨sk, x, post', rfl, h3, h4, h5, h6⟩
              · left
                refine ⟨h2, ?_⟩
                intro y hy
                rcases List.mem_cons.1 hy with rfl | hy
                · exact hp
                · exact h3 y hy
              · right
                refine ⟨it :: sk, x, post', rfl, ?_, h4, h5, h6⟩
                intro y hy
                rcases List.mem_cons.1 hy with rfl | hy
                · exact hp
                · exact h3 y hy
            · rintro e s' ⟨h1, h2, x, hx, h3⟩
              exact ⟨h1.of_len hb.len, hb.trans h2, x, by simp [hx], h3⟩
          rcases hx with rfl | rfl <;> exact this
      · exact Sat.of_err (bind_err he) ⟨hE, .refl _, hE2⟩

/-- The scan of one page for a key. -/
theorem scanPage_sat (L : Lawful kc vc) (k : K) {i : Nat} (hi : i < g.pageCount) {cf : Bool} {its : List It} {f : Nat}
    (henc : ∀ it ∈ its, it.present = true → ∃ k v, Enc kc vc it.data k v) (hsh : Short md g its) :
    ∀ {rounds a : Nat} {s : St K} (found : Option (Nat × Nat)), Layout cf g s.fl.mem (g.dataEnd i) a its f →
      g.dataStart i ≤ a → g.word ∣ a → g.dataEnd i < a + rounds → 0 < rounds →
    Sat (Map.scanPage g kc k (g.dataEnd i) rounds a found) s
      (fun r s' => BufOnly s s' ∧
        match look kc k its with
        | none => r = found
        | some it => ∃ n, (∀ rest, kc.de (it.data ++ rest) = .ok (k, n)) ∧ r = some (it.addr, n))
      (fun e s' => TooSmall md s e ∧ BufOnly s s' ∧ ∃ x ∈ its, e = .bufferTooSmall (g.roundUp x.hdr.len.toNat)) := by
  intro rounds
  induction rounds generalizing its with
  | zero => intro a s _ _ _ _ _ h0; omega
  | succ r ih =>
    intro a s found l ha hd hr h0
    have hro := rounds_ok w i ha
    unfold Map.scanPage
    rcases (itemNext_sat w hi l hsh ha hd hro.1 hro.2).cases with ⟨x, s1, he, hb, hx⟩ | ⟨e, s1, he, hE, hb, hE2⟩
    · refine Sat.bind_eq he ?_
      obtain ⟨x1, x2⟩ := x
      rcases hx with ⟨h1, h2⟩ | ⟨sk, it, post, rfl, hsk, hp, hx, hh⟩
      · simp only at h1; subst h1
        rw [look_absent h2]
        exact Sat.pure ⟨hb, rfl⟩
      · simp only [Prod.mk.injEq] at hx
        obtain ⟨rfl, rfl⟩ := hx
        simp only
        refine Sat.bind_eq (get_run s1) ?_
        obtain ⟨k', v, henc'⟩ := henc it (by simp) hp
        obtain ⟨n, hn1, hn2, _, _⟩ := henc'.de L
        have hde : kc.de s1.buf = .ok (k', n) := by rw [hh.split]; exact hn2 _
        refine Sat.bind_eq (liftSer_ok hde s1) ?_
        have hk' := henc'.keyOf L
        have hs := l.suffix w
        have hmi := l.mem_item w (it := it) (by simp)
        have hn := Layout.next_gt w it.hdr it.addr
        have hnd := Layout.next_dvd w (h := it.hdr) (l.mem_dvd w hd (it := it) (by simp))
        have hfe := hs.le w
        have hfe2 : f ≤ g.dataEnd i := l.le_end w (by
          have := hdrAt_some_iff.1 hmi.2.1
          omega) hd
        refine (ih (its := post) (fun y hy => henc y (by simp [hy])) (hsh.sub (by simp)) (s := s1) (if k' = k then some (it.addr, n) else found)
          (by rw [hb.fl]; exact hs) (by omega) hnd (by omega) (by omega)).mono ?_ ?_
        · rintro r s' ⟨h1, h2⟩
          refine ⟨hb.trans h1, ?_⟩
          rw [look_append, look_absent hsk, look_cons]
          cases hlp : look kc k post with
          | some y => rw [hlp] at h2; exact h2
          | none =>
            rw [hlp] at h2
            simp only at h2
            by_cases hkk : k' = k
            · subst hkk
              rw [if_pos rfl] at h2
              have : hits kc k' it = true := hits_iff.2 ⟨hp, hk'⟩
              rw [this]
              exact ⟨n, hn2, h2⟩
            · rw [if_neg hkk] at h2
              have : hits kc k it = false := by
                cases hh' : hits kc k it with
                | false => rfl
                | true =>
                  have := (hits_iff.1 hh').2
                  rw [hk'] at this
                  simp only [Option.some.injEq] at this
                  exact absurd this hkk
              rw [this]
              exact h2
        · rintro e s' ⟨h1, h2, y, hy, h3⟩
          exact ⟨h1.of_len hb.len, hb.trans h2, y, by simp [hy], h3⟩
    · exact Sat.of_err (bind_err he) ⟨hE, hb, hE2⟩

/-! ### Pages in use -/

omit w in
/-- A page that is not open holds items. -/
theorem used_of_lt {fl : Flash} (h : FS md g fl σ P) {j : Nat} (hj : j < σ.m) :
    ∃ its f, P (ringPage g.pageCount σ.o j) =
      .used (!decide (ringPage g.pageCount σ.o j = σ.front g.pageCount ∧ σ.part = true)) its f := by
  have wf := h.wf
  have hml := wf.m_le
  have hlt := ringPage_lt (n := g.pageCount) wf.o_lt (by omega : j < g.pageCount)
  have hst := h.st _ hlt
  by_cases hf : ringPage g.pageCount σ.o j = σ.front g.pageCount ∧ σ.part = true
  · have : σ.st g.pageCount (ringPage g.pageCount σ.o j) = .ok .partialOpen := by
      rw [hf.1]
      have := CalcOk.st_front wf (fun h => by rw [hf.2] at h; simp at h)
      rw [this, hf.2]; rfl
    rw [this] at hst
    rw [decide_eq_true hf]
    cases hpk : P (ringPage g.pageCount σ.o j) with
    | used c its f =>
      rw [hpk] at hst
      cases c with
      | true => simp [PK.st] at hst
      | false => exact ⟨its, f, rfl⟩
    | blank => rw [hpk] at hst; simp [PK.st] at hst
    | junk => rw [hpk] at hst; simp [PK.st] at hst
    | corr => rw [hpk] at hst; simp [PK.st] at hst
  · have : σ.st g.pageCount (ringPage g.pageCount σ.o j) = .ok .closed := by
      rw [Shape.st_closed, ringPos_page wf.o_lt (by omega)]
      refine ⟨hj, ?_⟩
      rintro ⟨h1, h2⟩
      exact hf ⟨by rw [front_eq h1]; congr 1; omega, h1⟩
    rw [this] at hst
    rw [decide_eq_false hf]
    cases hpk : P (ringPage g.pageCount σ.o j) with
    | used c its f =>
      rw [hpk] at hst
      cases c with
      | true => exact ⟨its, f, rfl⟩
      | false => simp [PK.st] at hst
    | blank => rw [hpk] at hst; simp [PK.st] at hst
    | junk => rw [hpk] at hst; simp [PK.st] at hst
    | corr => rw [hpk] at hst; simp [PK.st] at hst

/-- No item is longer than the limit. -/
theorem page_short {fl : Flash} (h : FS md g fl σ P) {j : Nat} (hj : j < σ.m) :
    Short md g (P (ringPage g.pageCount σ.o j)).its := by
  obtain ⟨its, f, hpk⟩ := used_of_lt h hj
  have hml := h.wf.m_le
  have hp := h.pages _ (ringPage_lt (n := g.pageCount) h.wf.o_lt (by omega : j < g.pageCount))
  rw [hpk] at hp ⊢
  have u : Used md g fl _ _ its f := hp
  exact u.fit

omit w in
/-- No page holds an item that is too long for the buffers. -/
theorem any_short {fl : Flash} (h : FS md g fl σ P) {i : Nat} (hi : i < g.pageCount) : Short md g (P i).its := by
  have hp := h.pages _ hi
  cases hpk : P i with
  | used c its f =>
    rw [hpk] at hp
    have u : Used md g fl _ _ its f := hp
    exact u.fit
  | blank => intro n _ x hx; simp [PK.its] at hx
  | corr => intro n _ x hx; simp [PK.its] at hx
  | junk => intro n _ x hx; simp [PK.its] at hx

/-- Where an item of the contents is. -/
theorem page_layout {fl : Flash} (h : FS md g fl σ P) {j : Nat} (hj : j < σ.m) :
    ∃ c f, P (ringPage g.pageCount σ.o j) = .used c (P (ringPage g.pageCount σ.o j)).its f ∧
      ringPage g.pageCount σ.o j < g.pageCount ∧
      Layout md.cf g fl.mem (g.dataEnd (ringPage g.pageCount σ.o j)) (g.dataStart (ringPage g.pageCount σ.o j))
        (P (ringPage g.pageCount σ.o j)).its f := by
  obtain ⟨its, f, hpk⟩ := used_of_lt h hj
  have hml := h.wf.m_le
  have hlt := ringPage_lt (n := g.pageCount) h.wf.o_lt (by omega : j < g.pageCount)
  have hp := h.pages _ hlt
  rw [hpk] at hp
  have u : Used md g fl _ _ its f := hp
  refine ⟨_, f, by rw [hpk]; rfl, hlt, ?_⟩
  rw [hpk]; exact u.layout

/-- An item of the contents lies in its page. -/
theorem item_place {fl : Flash} (h : FS md g fl σ P) {it : It} (hm : it ∈ icontent g.pageCount σ P) :
    ∃ j c f, j < σ.m ∧ it ∈ (P (ringPage g.pageCount σ.o j)).its ∧ ringPage g.pageCount σ.o j < g.pageCount ∧
      P (ringPage g.pageCount σ.o j) = .used c (P (ringPage g.pageCount σ.o j)).its f ∧
      Layout md.cf g fl.mem (g.dataEnd (ringPage g.pageCount σ.o j)) (g.dataStart (ringPage g.pageCount σ.o j))
        (P (ringPage g.pageCount σ.o j)).its f ∧
      g.dataStart (ringPage g.pageCount σ.o j) ≤ it.addr ∧
      it.hdr.next g it.addr ≤ g.dataEnd (ringPage g.pageCount σ.o j) ∧ g.word ∣ it.addr := by
  obtain ⟨j, hj, hi⟩ := mem_icontent.1 hm
  obtain ⟨c, f, hpk, hlt, l⟩ := page_layout w h hj
  have hmi := l.mem_item w hi
  have ho := page_order w (ringPage g.pageCount σ.o j)
  have hfe := l.le_end w (by omega) (w.dataStart_word _)
  exact ⟨j, c, f, hj, hi, hlt, hpk, l, hmi.1, by omega, l.mem_dvd w (w.dataStart_word _) hi⟩

/-- Items of the contents are told apart by their addresses. -/
theorem item_unique {fl : Flash} (h : FS md g fl σ P) {x y : It} (hx : x ∈ icontent g.pageCount σ P)
    (hy : y ∈ icontent g.pageCount σ P) (he : x.addr = y.addr) : x = y := by
  obtain ⟨j, c, f, hj, hxi, hlt, hpk, l, h1, h2, _⟩ := item_place w h hx
  obtain ⟨j', c', f', hj', hyi, hlt', hpk', l', h1', h2', _⟩ := item_place w h hy
  have hn := Layout.next_gt w x.hdr x.addr
  have hn' := Layout.next_gt w y.hdr y.addr
  have ho := page_order w (ringPage g.pageCount σ.o j)
  have ho' := page_order w (ringPage g.pageCount σ.o j')
  have hpp : ringPage g.pageCount σ.o j = ringPage g.pageCount σ.o j' := by
    apply Classical.byContradiction
    intro hne
    have := w.page_disjoint (x := x.addr) hne (by omega) (by omega)
    omega
  rw [← hpp] at hyi
  obtain ⟨pre, post, hsplit⟩ := List.append_of_mem hxi
  rw [hsplit] at hyi l
  rcases List.mem_append.1 hyi with hyi | hyi
  · have := l.disjoint w y (by simp [hyi]); omega
  · rcases List.mem_cons.1 hyi with hyi | hyi
    · exact hyi.symm
    · have := l.disjoint w y (by simp [hyi]); omega

end SeqStorage
