import Verif.Proofs.Write
/-
What a page can look like, and how programming and erasing changes it.
-/

set_option linter.unusedSectionVars false

namespace SeqStorage
open M

variable {K : Type} [DecidableEq K]

/-- The kind of history: `cf`: power was never lost; `np`: no item was ever removed; `lim`: no item has more bytes of
data, rounded up to words; `was`: what the data of every item of a map satisfies; `dmg`: items of the queue may have been
damaged. -/
structure Mode where
  cf : Bool
  np : Bool
  lim : Option Nat
  was : List Byte → Prop
  dmg : Bool

/-- What a page looks like. `junk` looks open but need not be blank. -/
inductive PK where
  | blank
  | used (closed : Bool) (its : List It) (free : Nat)
  | corr
  | junk
  deriving DecidableEq, Repr

namespace PK
/-- The state the markers show. -/
def st : PK → Except Err PageState
  | blank => .ok .open
  | used true _ _ => .ok .closed
  | used false _ _ => .ok .partialOpen
  | corr => .error .corrupted
  | junk => .ok .open
/-- The items of the page. -/
def its : PK → List It
  | used _ l _ => l
  | _ => []
end PK

/-- The addresses below this one are covered by the write-count part of the invariants. -/
def wend (md : Mode) (g : Geo) (i : Nat) : Nat := if md.cf then g.pageEnd i else g.pageAddr i

/-- How often a word of the page may have been programmed. -/
def wbound (g : Geo) (its : List It) (x : Nat) : Nat :=
  if its.any (fun it => decide (it.addr ≤ x) && decide (x < it.addr + g.hl) && decide (it.hdr.crc.setWidth 8 = 0#8))
  then 2 else 1

theorem one_le_wbound (g : Geo) (its : List It) (x : Nat) : 1 ≤ wbound g its x := by
  unfold wbound; split <;> omega

/-- The marker window `[a, a+n)` contains only marker bytes and erased bytes. -/
def Clean (mem : Nat → Byte) (a n : Nat) : Prop := ∀ x, a ≤ x → x < a + n → mem x = 0#8 ∨ mem x = 0xff#8
def HasZero (mem : Nat → Byte) (a n : Nat) : Prop := ∃ x, a ≤ x ∧ x < a + n ∧ mem x = 0#8
def AllFF (mem : Nat → Byte) (a n : Nat) : Prop := ∀ x, a ≤ x → x < a + n → mem x = 0xff#8
def Zeroed (ws : Nat) (writes : Nat → Nat) (a b : Nat) : Prop := ∀ x, a ≤ x → x < b → x % ws = 0 → writes x = 0

/-- The data of no item is longer than the limit. -/
abbrev Short (md : Mode) (g : Geo) (its : List It) : Prop :=
  ∀ n, md.lim = some n → ∀ it ∈ its, it.hdr.crc ≠ 0#32 → g.roundUp it.hdr.len.toNat ≤ n

/-- A page in use. -/
structure Used (md : Mode) (g : Geo) (fl : Flash) (i : Nat) (closed : Bool) (its : List It) (f : Nat) : Prop where
  layout : Layout md.cf g fl.mem (g.dataEnd i) (g.dataStart i) its f
  startC : Clean fl.mem (g.pageAddr i) g.readSize
  startZ : HasZero fl.mem (g.pageAddr i) g.readSize
  endC : Clean fl.mem (g.pageEnd i - g.readSize) g.readSize
  endZ : closed = true → HasZero fl.mem (g.pageEnd i - g.readSize) g.readSize
  endF : closed = false → AllFF fl.mem (g.pageEnd i - g.readSize) g.readSize
  fresh : closed = false → f + g.hl ≤ g.dataEnd i → AllFF fl.mem f (g.dataEnd i - f)
  freshW : closed = false → Zeroed g.writeSize fl.writes f (wend md g i)
  counts : ∀ x, g.pageAddr i ≤ x → x < wend md g i → x % g.writeSize = 0 → fl.writes x ≤ wbound g its x
  np : md.np = true → ∀ it ∈ its, it.hdr.crc.setWidth 8 ≠ 0#8
  fit : Short md g its
  heads : md.cf = false → g.word < 8 → ∀ it ∈ its, ∃ d j, md.was d ∧
    it.hdr = { Header.ofData d with crc := clearedCrc (adaptedCrc32 d) j }
  gaps : md.cf = false → g.word < 8 → Gaps (Scraps g.word md.was) g fl.mem (g.dataEnd i) (g.dataStart i) its f
  pads : md.dmg = false → ∀ it ∈ its, ∀ x, it.addr + 8 ≤ x → x < it.addr + g.hl → fl.mem x = 0xff#8

/-- What each kind of page means. -/
def PageIs (md : Mode) (g : Geo) (fl : Flash) (i : Nat) : PK → Prop
  | .blank => AllFF fl.mem (g.pageAddr i) g.eraseSize ∧ Zeroed g.writeSize fl.writes (g.pageAddr i) (wend md g i)
  | .used closed its f => Used md g fl i closed its f
  | .corr => md.cf = false ∧ AllFF fl.mem (g.pageAddr i) g.readSize ∧
      Clean fl.mem (g.pageEnd i - g.readSize) g.readSize ∧ HasZero fl.mem (g.pageEnd i - g.readSize) g.readSize
  | .junk => md.cf = false ∧ AllFF fl.mem (g.pageAddr i) g.readSize ∧
      AllFF fl.mem (g.pageEnd i - g.readSize) g.readSize

/-- A mode the geometry supports. -/
structure Mode.OK (md : Mode) (g : Geo) : Prop where
  word : md.cf = false → g.word < 8 → NoMix g.word md.was
  pages : md.cf = false → 2 ≤ g.pageCount

section
variable {md : Mode} {g : Geo} (w : g.WF)
include w

theorem wend_le (i : Nat) : wend md g i ≤ g.pageEnd i := by
  have := w.pageEnd_eq i; unfold wend; split <;> omega

/-- Addresses within a page in order. -/
theorem page_order (i : Nat) : g.dataStart i = g.pageAddr i + g.word ∧ g.pageEnd i = g.pageAddr i + g.eraseSize ∧
    g.dataEnd i + g.word = g.pageEnd i ∧ g.dataStart i + g.word + g.hl ≤ g.dataEnd i ∧ g.readSize ≤ g.word ∧
    0 < g.readSize ∧ 8 ≤ g.hl ∧ g.start ≤ g.pageAddr i :=
  ⟨rfl, w.pageEnd_eq i, w.dataEnd_add i, w.data_room i, w.read_le, w.read_pos, w.hl_ge, w.start_le i⟩

theorem Used.bounds {fl : Flash} {i : Nat} {closed : Bool} {its : List It} {f : Nat}
    (u : Used md g fl i closed its f) : g.dataStart i ≤ f ∧ f ≤ g.dataEnd i ∧ g.word ∣ f := by
  have := page_order w i
  exact ⟨u.layout.le w, u.layout.le_end w (by omega) (w.dataStart_word i), u.layout.dvd w (w.dataStart_word i)⟩

/-! ### Items follow one another -/

/-- The rest of the page after one of its items. -/
theorem Layout.suffix {cf : Bool} {mem : Nat → Byte} {e a f : Nat} {pre post : List It} {it : It}
    (l : Layout cf g mem e a (pre ++ it :: post) f) : Layout cf g mem e (it.hdr.next g it.addr) post f := by
  generalize hp : pre ++ it :: post = its at l
  induction l generalizing pre with
  | done h => simp at hp
  | gap hc h t ih => exact ih hp
  | @item a f its hd h t ih =>
    cases pre with
    | nil => simp only [List.nil_append, List.cons.injEq] at hp; rw [hp.1, hp.2]; exact t
    | cons x pre => exact ih (List.cons.inj hp).2

/-- The items before one of the items end before it. -/
theorem Layout.before {cf : Bool} {mem : Nat → Byte} {e a f : Nat} {pre post : List It} {it : It}
    (l : Layout cf g mem e a (pre ++ it :: post) f) : a ≤ it.addr ∧ ∀ x ∈ pre, x.hdr.next g x.addr ≤ it.addr := by
  generalize hp : pre ++ it :: post = its at l
  induction l generalizing pre with
  | done h => simp at hp
  | gap hc h t ih => have := ih hp; exact ⟨by omega, this.2⟩
  | @item a f its hd h t ih =>
    cases pre with
    | nil => simp only [List.nil_append, List.cons.injEq] at hp; rw [hp.1]; simp
    | cons x pre =>
      have h' := ih (List.cons.inj hp).2
      have h0 : hd.next g a ≥ a := by unfold Header.next; omega
      refine ⟨by omega, fun y hy => ?_⟩
      rcases List.mem_cons.1 hy with rfl | hy
      · have := (List.cons.inj hp).1; rw [this]; exact h'.1
      · exact h'.2 y hy

/-- Headers of different items do not overlap. -/
theorem Layout.disjoint {cf : Bool} {mem : Nat → Byte} {e a f : Nat} {pre post : List It} {it : It}
    (l : Layout cf g mem e a (pre ++ it :: post) f) :
    ∀ x ∈ pre ++ post, x.addr + g.hl ≤ it.addr ∨ it.addr + g.hl ≤ x.addr := by
  intro x hx
  rcases List.mem_append.1 hx with hx | hx
  · left
    have := (l.before w).2 x hx
    unfold Header.next at this; omega
  · right
    obtain ⟨p, q, rfl⟩ := List.append_of_mem hx
    have := ((l.suffix w).before w).1
    unfold Header.next at this; omega

/-! ### Frame -/

theorem PageIs.congr {fl fl' : Flash} {i : Nat} {pk : PK} (h : PageIs md g fl i pk)
    (hm : ∀ x, g.pageAddr i ≤ x → x < g.pageEnd i → fl'.mem x = fl.mem x)
    (hw : ∀ x, g.pageAddr i ≤ x → x < g.pageEnd i → fl'.writes x = fl.writes x) :
    PageIs md g fl' i pk := by
  have ho := page_order w i
  have h1 := wend_le w (md := md) i
  have cC : ∀ a n, g.pageAddr i ≤ a → a + n ≤ g.pageEnd i → Clean fl.mem a n → Clean fl'.mem a n := by
    intro a n ha hn hc x hx1 hx2
    rw [hm x (by omega) (by omega)]; exact hc x hx1 hx2
  have cF : ∀ a n, g.pageAddr i ≤ a → a + n ≤ g.pageEnd i → AllFF fl.mem a n → AllFF fl'.mem a n := by
    intro a n ha hn hc x hx1 hx2
    rw [hm x (by omega) (by omega)]; exact hc x hx1 hx2
  have cZ : ∀ a n, g.pageAddr i ≤ a → a + n ≤ g.pageEnd i → HasZero fl.mem a n → HasZero fl'.mem a n := by
    intro a n ha hn hc
    obtain ⟨x, hx1, hx2, hx3⟩ := hc
    exact ⟨x, hx1, hx2, by rw [hm x (by omega) (by omega)]; exact hx3⟩
  have cW : ∀ a b, g.pageAddr i ≤ a → b ≤ g.pageEnd i → Zeroed g.writeSize fl.writes a b →
      Zeroed g.writeSize fl'.writes a b := by
    intro a n ha hn hc x hx1 hx2
    rw [hw x (by omega) (by omega)]; exact hc x hx1 hx2
  cases pk with
  | blank => exact ⟨cF _ _ (by omega) (by omega) h.1, cW _ _ (by omega) (by omega) h.2⟩
  | corr => exact ⟨h.1, cF _ _ (by omega) (by omega) h.2.1, cC _ _ (by omega) (by omega) h.2.2.1,
      cZ _ _ (by omega) (by omega) h.2.2.2⟩
  | junk => exact ⟨h.1, cF _ _ (by omega) (by omega) h.2.1, cF _ _ (by omega) (by omega) h.2.2⟩
  | used closed its f =>
    have u : Used md g fl i closed its f := h
    have hb := u.bounds w
    exact {
      layout := u.layout.congr w (fun x h1 h2 => hm x (by omega) (by omega))
      startC := cC _ _ (by omega) (by omega) u.startC
      startZ := cZ _ _ (by omega) (by omega) u.startZ
      endC := cC _ _ (by omega) (by omega) u.endC
      endZ := fun hc => cZ _ _ (by omega) (by omega) (u.endZ hc)
      endF := fun hc => cF _ _ (by omega) (by omega) (u.endF hc)
      fresh := fun hc hr => cF _ _ (by omega) (by omega) (u.fresh hc hr)
      freshW := fun hc => cW _ _ (by omega) (by omega) (u.freshW hc)
      counts := fun x h1 h2 h3 => by rw [hw x h1 (by omega)]; exact u.counts x h1 h2 h3
      np := u.np
      fit := u.fit
      heads := u.heads
      gaps := fun h1 h2 => (u.gaps h1 h2).congr (fun x h3 h4 => hm x (by omega) (by omega))
      pads := fun h1 it hit x h3 h4 => by
        have := u.layout.mem_item w hit
        have hn : it.hdr.next g it.addr = it.addr + g.hl + g.roundUp it.hdr.len.toNat := rfl
        rw [hm x (by omega) (by omega)]; exact u.pads h1 it hit x h3 h4 }

/-! ### The state of a page -/

omit w in
theorem countZeros_ff : countZeros 0xff#8 = 0 := by decide
omit w in
theorem countZeros_zero : countZeros 0#8 = 8 := by decide

omit w in
theorem le_sum_of_mem {l : List Nat} {n : Nat} (h : n ∈ l) : n ≤ l.sum := by
  induction l with
  | nil => simp at h
  | cons a l ih =>
    rw [List.sum_cons]
    rcases List.mem_cons.1 h with rfl | h
    · omega
    · have := ih h; omega

omit w in
theorem marked_clean {mem : Nat → Byte} {a n : Nat} (_ : Clean mem a n) (hz : HasZero mem a n) :
    marked (readBytes mem a n) = true := by
  unfold marked
  rw [decide_eq_true_eq]
  obtain ⟨x, h1, h2, h3⟩ := hz
  have : 8 ∈ (readBytes mem a n).map countZeros := by
    rw [List.mem_map]
    refine ⟨0#8, ?_, countZeros_zero⟩
    unfold readBytes
    rw [List.mem_map]
    exact ⟨x - a, List.mem_range.2 (by omega), by rw [← h3]; congr 1; omega⟩
  have := le_sum_of_mem this
  omega

omit w in
theorem marked_ff {mem : Nat → Byte} {a n : Nat} (hc : AllFF mem a n) : marked (readBytes mem a n) = false := by
  rw [readBytes_blank hc]
  unfold marked
  rw [decide_eq_false_iff_not, List.map_replicate, countZeros_ff]
  simp

theorem getPageState_run {i : Nat} {pk : PK} (s : St K) (hi : i < g.pageCount) (h : PageIs md g s.fl i pk) :
    getPageState g i s = (pk.st, s) := by
  have ho := page_order w i
  have hle := w.page_le hi
  unfold getPageState
  have hE : g.pageAddr i + (g.eraseSize - g.readSize) = g.pageEnd i - g.readSize := by omega
  have r1 : flashRead g (g.pageAddr i) g.readSize s = (.ok (readBytes s.fl.mem (g.pageAddr i) g.readSize), s) :=
    flashRead_run w s (w.pageAddr_word i) (Nat.dvd_refl _) (by omega) (by omega) (by omega)
  have r2 : flashRead g (g.pageEnd i - g.readSize) g.readSize s =
      (.ok (readBytes s.fl.mem (g.pageEnd i - g.readSize) g.readSize), s) := by
    simp only [flashRead, Flash.read]
    have e1 : (g.pageEnd i - g.readSize) % g.readSize = 0 :=
      Nat.mod_eq_zero_of_dvd (Nat.dvd_sub (Nat.dvd_trans w.read_dvd (w.pageEnd_word i)) (Nat.dvd_refl _))
    rw [if_neg (by rw [Nat.mod_self]; omega), if_neg (by omega)]
  rw [bind_ok r1, hE, bind_ok r2, lift_run]
  congr 1
  cases pk with
  | blank =>
    rw [marked_ff (fun x h1 h2 => h.1 x h1 (by omega)), marked_ff (fun x h1 h2 => h.1 x (by omega) (by omega))]; rfl
  | corr => rw [marked_ff h.2.1, marked_clean h.2.2.1 h.2.2.2]; rfl
  | junk => rw [marked_ff h.2.1, marked_ff h.2.2]; rfl
  | used closed its f =>
    have u : Used md g s.fl i closed its f := h
    rw [marked_clean u.startC u.startZ]
    cases closed with
    | true => rw [marked_clean u.endC (u.endZ rfl)]; rfl
    | false => rw [marked_ff (u.endF rfl)]; rfl

/-! ### Programming the markers -/

omit w in
theorem program_zero {mem : Nat → Byte} {a n x : Nat} (h1 : a ≤ x) (h2 : x < a + n) :
    programBytes mem a (List.replicate n 0#8) x = 0#8 := by
  unfold programBytes
  rw [if_pos (by simp; omega)]
  have : (List.replicate n 0#8).getD (x - a) 0xff#8 = 0#8 := by
    simp only [List.getD, List.getElem?_replicate]
    rw [if_pos (by omega)]; rfl
  rw [this]; simp

omit w in
theorem markerWord_take (g : Geo) (k : Nat) (hk : k ≤ g.word) : (markerWord g).take k = List.replicate k 0#8 := by
  unfold markerWord; rw [List.take_replicate]; congr 1; omega

omit w in
theorem markerWord_length (g : Geo) : (markerWord g).length = g.word := by simp [markerWord]

omit w in
theorem countWrites_out {ws : Nat} {wr : Nat → Nat} {a n x : Nat} (h : x < a ∨ a + n ≤ x) :
    countWrites ws wr a n x = wr x := by
  unfold countWrites; rw [if_neg (by omega)]

omit w in
theorem countWrites_le {ws : Nat} {wr : Nat → Nat} {a n x : Nat} : countWrites ws wr a n x ≤ wr x + 1 := by
  unfold countWrites; split <;> omega

/-- Writing the start marker. -/
theorem PageIs.markStart {fl : Flash} {i : Nat} (h : PageIs md g fl i .blank) :
    (fl.all g.word = true → PageIs md g (fl.prog g (g.pageAddr i) (markerWord g)) i (.used false [] (g.dataStart i))) ∧
    (PageIs md g (fl.prog g (g.pageAddr i) (markerWord g)) i (.used false [] (g.dataStart i)) ∨
      PageIs md g (fl.prog g (g.pageAddr i) (markerWord g)) i .blank) := by
  have ho := page_order w i
  have h1 := wend_le w (md := md) i
  have hml := markerWord_length g
  have hgot := fl.got_le g.word
  generalize hk : fl.got g.word = k at hgot
  have hm : ∀ x, (fl.prog g (g.pageAddr i) (markerWord g)).mem x =
      if g.pageAddr i ≤ x ∧ x < g.pageAddr i + k then 0#8 else fl.mem x := by
    intro x
    simp only [Flash.prog, hml, hk, markerWord_take g k hgot]
    split
    · rename_i hx; exact program_zero hx.1 hx.2
    · rename_i hx; exact programBytes_outside (by simp; omega)
  have hw : ∀ x, (fl.prog g (g.pageAddr i) (markerWord g)).writes x =
      countWrites g.writeSize fl.writes (g.pageAddr i) k x := by
    intro x; simp only [Flash.prog, hml, hk]
  have key : 0 < k → PageIs md g (fl.prog g (g.pageAddr i) (markerWord g)) i (.used false [] (g.dataStart i)) := by
    intro hpos
    constructor
    · apply Layout.blank
      intro x hx1 hx2
      rw [hm, if_neg (by omega)]; exact h.1 x (by omega) (by omega)
    · intro x hx1 hx2
      rw [hm]; split
      · exact Or.inl rfl
      · exact Or.inr (h.1 x (by omega) (by omega))
    · exact ⟨g.pageAddr i, Nat.le_refl _, by omega, by rw [hm, if_pos (by omega)]⟩
    · intro x hx1 hx2
      rw [hm, if_neg (by omega)]; exact Or.inr (h.1 x (by omega) (by omega))
    · simp
    · intro _ x hx1 hx2
      rw [hm, if_neg (by omega)]; exact h.1 x (by omega) (by omega)
    · intro _ _ x hx1 hx2
      rw [hm, if_neg (by omega)]; exact h.1 x (by omega) (by omega)
    · intro _ x hx1 hx2 hx3
      rw [hw, countWrites_out (by omega)]; exact h.2 x (by omega) (by omega) hx3
    · intro x hx1 hx2 hx3
      have := h.2 x hx1 hx2 hx3
      have := one_le_wbound g [] x
      have := countWrites_le (ws := g.writeSize) (wr := fl.writes) (a := g.pageAddr i) (n := k) (x := x)
      rw [hw]; omega
    · simp
    · intro n _ x hx; simp at hx
    · intro _ _ x hx; simp at hx
    · exact fun _ _ => ⟨Nat.le_refl _, fun _ => by rw [Nat.sub_self]; exact .nil⟩
    · intro _ x hx; simp at hx
  constructor
  · intro hall
    apply key
    have := Flash.got_all hall
    have := w.word_pos
    omega
  · rcases Nat.eq_zero_or_pos k with h0 | hpos
    · right
      subst h0
      refine ⟨fun x hx1 hx2 => ?_, fun x hx1 hx2 hx3 => ?_⟩
      · rw [hm, if_neg (by omega)]; exact h.1 x hx1 hx2
      · rw [hw, countWrites_out (by omega)]; exact h.2 x hx1 hx2 hx3
    · exact Or.inl (key hpos)

/-- Writing the end marker. -/
theorem PageIs.markEnd {fl : Flash} {i : Nat} {its : List It} {f : Nat} (h : PageIs md g fl i (.used false its f))
    (hcf : md.cf = true → fl.fuel = none) :
    (fl.all g.word = true → PageIs md g (fl.prog g (g.dataEnd i) (markerWord g)) i (.used true its f)) ∧
    (PageIs md g (fl.prog g (g.dataEnd i) (markerWord g)) i (.used true its f) ∨
      PageIs md g (fl.prog g (g.dataEnd i) (markerWord g)) i (.used false its f)) := by
  have ho := page_order w i
  have h1 := wend_le w (md := md) i
  have hml := markerWord_length g
  have hgot := fl.got_le g.word
  have hcfk : md.cf = true → fl.got g.word = g.word := fun hc => Flash.got_none (hcf hc)
  generalize hk : fl.got g.word = k at hgot hcfk
  have hm : ∀ x, (fl.prog g (g.dataEnd i) (markerWord g)).mem x =
      if g.dataEnd i ≤ x ∧ x < g.dataEnd i + k then 0#8 else fl.mem x := by
    intro x
    simp only [Flash.prog, hml, hk, markerWord_take g k hgot]
    split
    · rename_i hx; exact program_zero hx.1 hx.2
    · rename_i hx; exact programBytes_outside (by simp; omega)
  have hw : ∀ x, (fl.prog g (g.dataEnd i) (markerWord g)).writes x =
      countWrites g.writeSize fl.writes (g.dataEnd i) k x := by
    intro x; simp only [Flash.prog, hml, hk]
  have u : Used md g fl i false its f := h
  have hb := u.bounds w
  have hlay : Layout md.cf g (fl.prog g (g.dataEnd i) (markerWord g)).mem (g.dataEnd i) (g.dataStart i) its f :=
    u.layout.congr w (fun x hx1 hx2 => by rw [hm, if_neg (by omega)])
  have hgap : md.cf = false → g.word < 8 → Gaps (Scraps g.word md.was) g (fl.prog g (g.dataEnd i) (markerWord g)).mem
      (g.dataEnd i) (g.dataStart i) its f :=
    fun h1 h2 => (u.gaps h1 h2).congr (fun x h3 h4 => by rw [hm, if_neg (by omega)])
  have hpad : md.dmg = false → ∀ it ∈ its, ∀ x, it.addr + 8 ≤ x → x < it.addr + g.hl →
      (fl.prog g (g.dataEnd i) (markerWord g)).mem x = 0xff#8 := by
    intro h2 it hit x h3 h4
    have := u.layout.mem_item w hit
    have hn : it.hdr.next g it.addr = it.addr + g.hl + g.roundUp it.hdr.len.toNat := rfl
    rw [hm, if_neg (by omega)]; exact u.pads h2 it hit x h3 h4
  have hsC : Clean (fl.prog g (g.dataEnd i) (markerWord g)).mem (g.pageAddr i) g.readSize := by
    intro x hx1 hx2; rw [hm, if_neg (by omega)]; exact u.startC x hx1 hx2
  have hsZ : HasZero (fl.prog g (g.dataEnd i) (markerWord g)).mem (g.pageAddr i) g.readSize := by
    obtain ⟨x, hx1, hx2, hx3⟩ := u.startZ
    exact ⟨x, hx1, hx2, by rw [hm, if_neg (by omega)]; exact hx3⟩
  have hcnt : ∀ x, g.pageAddr i ≤ x → x < wend md g i → x % g.writeSize = 0 →
      (fl.prog g (g.dataEnd i) (markerWord g)).writes x ≤ wbound g its x := by
    intro x hx1 hx2 hx3
    rw [hw]
    by_cases hd : x < g.dataEnd i
    · rw [countWrites_out (Or.inl hd)]; exact u.counts x hx1 hx2 hx3
    · have := u.freshW rfl x (by omega) hx2 hx3
      have := one_le_wbound g its x
      have := countWrites_le (ws := g.writeSize) (wr := fl.writes) (a := g.dataEnd i) (n := k) (x := x)
      omega
  have key : g.word - g.readSize < k → PageIs md g (fl.prog g (g.dataEnd i) (markerWord g)) i (.used true its f) := by
    intro hpos
    refine ⟨hlay, hsC, hsZ, ?_, fun _ => ?_, by simp, by simp, by simp, hcnt, u.np, u.fit, u.heads, hgap, hpad⟩
    · intro x hx1 hx2
      rw [hm]; split
      · exact Or.inl rfl
      · exact u.endC x hx1 hx2
    · exact ⟨g.pageEnd i - g.readSize, Nat.le_refl _, by omega, by rw [hm, if_pos (by omega)]⟩
  constructor
  · intro hall
    apply key
    have := Flash.got_all hall
    omega
  · rcases Nat.lt_or_ge (g.word - g.readSize) k with hlt | hge
    · exact Or.inl (key hlt)
    · right
      have hcf' : md.cf = false := by
        cases hcf2 : md.cf with
        | false => rfl
        | true => have := hcfk hcf2; omega
      refine ⟨hlay, hsC, hsZ, ?_, by simp, fun _ => ?_, fun _ hr => ?_, fun _ => ?_, hcnt, u.np, u.fit, u.heads, hgap, hpad⟩
      · intro x hx1 hx2
        rw [hm, if_neg (by omega)]; exact u.endC x hx1 hx2
      · intro x hx1 hx2
        rw [hm, if_neg (by omega)]; exact u.endF rfl x hx1 hx2
      · intro x hx1 hx2
        rw [hm, if_neg (by omega)]; exact u.fresh rfl hr x hx1 hx2
      · intro x hx1 hx2 hx3
        have he : wend md g i = g.pageAddr i := by unfold wend; rw [hcf']; simp
        rw [hw, countWrites_out (by omega)]; exact u.freshW rfl x hx1 hx2 hx3

/-! ### Erasing -/

/-- Erasing the page. -/
theorem PageIs.erase {fl : Flash} {i : Nat} {pk : PK} (h : PageIs md g fl i pk)
    (hcf : md.cf = true → fl.fuel = none) :
    (fl.all g.eraseSize = true → PageIs md g (fl.clr g i) i .blank) ∧
    (PageIs md g (fl.clr g i) i .blank ∨ (fl.all g.eraseSize = false ∧
      match pk with
      | .used true its f => PageIs md g (fl.clr g i) i (.used true its f) ∨ PageIs md g (fl.clr g i) i .corr
      | .used false its f => PageIs md g (fl.clr g i) i (.used false its f) ∨ PageIs md g (fl.clr g i) i .junk
      | .corr => PageIs md g (fl.clr g i) i .corr
      | .blank => PageIs md g (fl.clr g i) i .junk
      | .junk => PageIs md g (fl.clr g i) i .junk)) := by
  have ho := page_order w i
  have h1 := wend_le w (md := md) i
  have hgot := fl.got_le g.eraseSize
  have hcfk : md.cf = true → fl.got g.eraseSize = g.eraseSize := fun hc => Flash.got_none (hcf hc)
  have hallk : fl.all g.eraseSize = true → fl.got g.eraseSize = g.eraseSize := Flash.got_all
  have hnall : fl.got g.eraseSize < g.eraseSize → fl.all g.eraseSize = false := by
    intro h
    cases ha : fl.all g.eraseSize with
    | false => rfl
    | true => have := hallk ha; omega
  generalize hk : fl.got g.eraseSize = k at hgot hcfk hallk hnall
  have hm : ∀ x, (fl.clr g i).mem x = if g.pageAddr i ≤ x ∧ x < g.pageAddr i + k then 0xff#8 else fl.mem x := by
    intro x; simp only [Flash.clr, hk, eraseBytes]
  have hw : ∀ x, (fl.clr g i).writes x =
      if x % g.writeSize = 0 ∧ g.pageAddr i ≤ x ∧ x < g.pageAddr i + k then 0 else fl.writes x := by
    intro x; simp only [Flash.clr, hk, resetWrites]
  -- the page is blank when all bytes from `k` on are erased anyway
  have full : k = g.eraseSize → PageIs md g (fl.clr g i) i .blank := by
    intro hE
    refine ⟨fun x hx1 hx2 => by rw [hm, if_pos (by omega)], fun x hx1 hx2 hx3 => ?_⟩
    rw [hw, if_pos ⟨hx3, hx1, by omega⟩]
  have tail : md.cf = false → g.pageEnd i - g.readSize < g.pageAddr i + k →
      (∀ x, g.pageAddr i + k ≤ x → x < g.pageEnd i → fl.mem x = 0xff#8) → PageIs md g (fl.clr g i) i .blank := by
    intro hc hE hF
    refine ⟨fun x hx1 hx2 => ?_, fun x hx1 hx2 hx3 => ?_⟩
    · rw [hm]; split
      · rfl
      · exact hF x (by omega) (by omega)
    · have he : wend md g i = g.pageAddr i := by unfold wend; rw [hc]; simp
      rw [hw, if_pos ⟨hx3, hx1, by omega⟩]
  refine ⟨fun ha => full (hallk ha), ?_⟩
  by_cases hE : k = g.eraseSize
  · exact Or.inl (full hE)
  have hlt : k < g.eraseSize := by omega
  have hna := hnall hlt
  have hc : md.cf = false := by
    cases hcf2 : md.cf with
    | false => rfl
    | true => exact absurd (hcfk hcf2) hE
  -- the windows after a partial erase
  have hsC : Clean fl.mem (g.pageAddr i) g.readSize → Clean (fl.clr g i).mem (g.pageAddr i) g.readSize := by
    intro hC x hx1 hx2; rw [hm]; split
    · exact Or.inr rfl
    · exact hC x hx1 hx2
  have heC : Clean fl.mem (g.pageEnd i - g.readSize) g.readSize →
      Clean (fl.clr g i).mem (g.pageEnd i - g.readSize) g.readSize := by
    intro hC x hx1 hx2; rw [hm]; split
    · exact Or.inr rfl
    · exact hC x hx1 hx2
  have sF : AllFF fl.mem (g.pageAddr i) g.readSize → AllFF (fl.clr g i).mem (g.pageAddr i) g.readSize := by
    intro hF x hx1 hx2; rw [hm]; split
    · rfl
    · exact hF x hx1 hx2
  have eF : AllFF fl.mem (g.pageEnd i - g.readSize) g.readSize →
      AllFF (fl.clr g i).mem (g.pageEnd i - g.readSize) g.readSize := by
    intro hF x hx1 hx2; rw [hm]; split
    · rfl
    · exact hF x hx1 hx2
  have zeroOr : ∀ a n, Clean (fl.clr g i).mem a n → HasZero (fl.clr g i).mem a n ∨ AllFF (fl.clr g i).mem a n := by
    intro a n hC
    by_cases hz : HasZero (fl.clr g i).mem a n
    · exact Or.inl hz
    · right
      intro x hx1 hx2
      rcases hC x hx1 hx2 with h' | h'
      · exact absurd ⟨x, hx1, hx2, h'⟩ hz
      · exact h'
  -- when a zero is left at the start, nothing but the start marker was touched
  have keep : ∀ {closed its f}, PageIs md g fl i (.used closed its f) →
      HasZero (fl.clr g i).mem (g.pageAddr i) g.readSize → PageIs md g (fl.clr g i) i (.used closed its f) := by
    intro closed its f h hz
    have u : Used md g fl i closed its f := h
    have hb := u.bounds w
    have hkR : k < g.readSize := by
      obtain ⟨x, hx1, hx2, hx3⟩ := hz
      rw [hm] at hx3
      by_cases hxk : x < g.pageAddr i + k
      · rw [if_pos (by omega)] at hx3; exact absurd hx3 (by decide)
      · omega
    have hout : ∀ x, g.dataStart i ≤ x → (fl.clr g i).mem x = fl.mem x := by
      intro x hx; rw [hm, if_neg (by omega)]
    have houtw : ∀ x, g.dataStart i ≤ x → (fl.clr g i).writes x = fl.writes x := by
      intro x hx; rw [hw, if_neg (by omega)]
    refine ⟨u.layout.congr w (fun x h1 h2 => hout x h1), hsC u.startC, hz, heC u.endC, fun hcl => ?_, fun hcl => ?_,
      fun hcl hr => ?_, fun hcl => ?_, ?_, u.np, u.fit, u.heads,
      fun h1 h2 => (u.gaps h1 h2).congr (fun x h3 h4 => hout x h3), fun h1 it hit x h3 h4 => by
        have := u.layout.mem_item w hit
        rw [hout x (by omega)]; exact u.pads h1 it hit x h3 h4⟩
    · obtain ⟨x, hx1, hx2, hx3⟩ := u.endZ hcl
      exact ⟨x, hx1, hx2, by rw [hout x (by omega)]; exact hx3⟩
    · exact eF (u.endF hcl)
    · intro x hx1 hx2; rw [hout x (by omega)]; exact u.fresh hcl hr x hx1 hx2
    · intro x hx1 hx2 hx3; rw [houtw x (by omega)]; exact u.freshW hcl x hx1 hx2 hx3
    · intro x hx1 hx2 hx3
      rw [hw]; split
      · omega
      · exact u.counts x hx1 hx2 hx3
  -- when no zero is left at the end, everything is blank
  have blankEnd : Clean fl.mem (g.pageEnd i - g.readSize) g.readSize →
      HasZero fl.mem (g.pageEnd i - g.readSize) g.readSize →
      AllFF (fl.clr g i).mem (g.pageEnd i - g.readSize) g.readSize → PageIs md g (fl.clr g i) i .blank := by
    intro hC hZ hF
    obtain ⟨x, hx1, hx2, hx3⟩ := hZ
    have hxk : x < g.pageAddr i + k := by
      apply Nat.lt_of_not_le
      intro hle
      have := hF x hx1 hx2
      rw [hm, if_neg (by omega), hx3] at this
      exact absurd this (by decide)
    apply tail hc (by omega)
    intro y hy1 hy2
    have := hF y (by omega) (by omega)
    rwa [hm, if_neg (by omega)] at this
  cases pk with
  | blank =>
    refine Or.inr ⟨hna, hc, sF (fun x h1 h2 => h.1 x h1 (by omega)), eF (fun x h1 h2 => h.1 x (by omega) (by omega))⟩
  | junk => exact Or.inr ⟨hna, hc, sF h.2.1, eF h.2.2⟩
  | corr =>
    rcases zeroOr _ _ (heC h.2.2.1) with hz | hF
    · exact Or.inr ⟨hna, hc, sF h.2.1, heC h.2.2.1, hz⟩
    · exact Or.inl (blankEnd h.2.2.1 h.2.2.2 hF)
  | used closed its f =>
    have hu := h
    have u : Used md g fl i closed its f := h
    rcases zeroOr _ _ (hsC u.startC) with hz | hF
    · right
      refine ⟨hna, ?_⟩
      cases closed with
      | true => exact Or.inl (keep hu hz)
      | false => exact Or.inl (keep hu hz)
    · cases closed with
      | true =>
        rcases zeroOr _ _ (heC u.endC) with hz | hF'
        · exact Or.inr ⟨hna, Or.inr ⟨hc, hF, heC u.endC, hz⟩⟩
        · exact Or.inl (blankEnd u.endC (u.endZ rfl) hF')
      | false => exact Or.inr ⟨hna, Or.inr ⟨hc, hF, eF (u.endF rfl)⟩⟩

/-! ### Programming items -/

omit w in
theorem wbound_append (its : List It) (it : It) (x : Nat) : wbound g its x ≤ wbound g (its ++ [it]) x := by
  unfold wbound
  rw [List.any_append]
  split
  · rename_i h; rw [h]; simp
  · split <;> omega

/-- Appending an item, as far as the power lasts. -/
theorem PageIs.append {fl : Flash} {i : Nat} {its : List It} {f : Nat} (hmd : md.OK g)
    (u : Used md g fl i false its f) {h : Header} {d : List Byte} (hd : d.length = h.len.toNat)
    (hlow : h.crc.setWidth 8 ≠ 0xff#8) (hlow0 : h.crc.setWidth 8 ≠ 0#8) (hfit : h.next g f ≤ g.dataEnd i)
    (hlim : ∀ n, md.lim = some n → g.roundUp d.length ≤ n) (hcf : md.cf = true → fl.fuel = none)
    (hpl : md.cf = false → g.word < 8 → ∃ d0, md.was d0 ∧ h = Header.ofData d0) :
    (fl.all (itemBytes g h d).length = true →
      Used md g (fl.prog g f (itemBytes g h d)) i false (its ++ [⟨f, h, d⟩]) (h.next g f)) ∧
    ((∃ f', PageIs md g (fl.prog g f (itemBytes g h d)) i (.used false its f')) ∨
      ∃ k, PageIs md g (fl.prog g f (itemBytes g h d)) i
        (.used false (its ++ [⟨f, h, tornData d k⟩]) (h.next g f))) := by
  have ho := page_order w i
  have h1 := wend_le w (md := md) i
  have hb := u.bounds w
  have hbl := itemBytes_length w h d
  have hru := w.le_roundUp d.length
  have hn : h.next g f = f + g.hl + g.roundUp d.length := by unfold Header.next; rw [hd]
  have hgot := fl.got_le (itemBytes g h d).length
  have hcfk : md.cf = true → fl.got (itemBytes g h d).length = (itemBytes g h d).length :=
    fun hc => Flash.got_none (hcf hc)
  have hallk : fl.all (itemBytes g h d).length = true → fl.got (itemBytes g h d).length = (itemBytes g h d).length :=
    Flash.got_all
  have hml : (fl.prog g f (itemBytes g h d)).mem =
      programBytes fl.mem f ((itemBytes g h d).take (fl.got (itemBytes g h d).length)) := rfl
  have hwl : (fl.prog g f (itemBytes g h d)).writes =
      countWrites g.writeSize fl.writes f (fl.got (itemBytes g h d).length) := rfl
  generalize hk : fl.got (itemBytes g h d).length = k at *
  have hout : ∀ x, x < f ∨ f + k ≤ x → (fl.prog g f (itemBytes g h d)).mem x = fl.mem x := by
    intro x hx
    rw [hml]
    apply programBytes_outside
    rw [List.length_take]; omega
  have hwout : ∀ x, x < f ∨ f + k ≤ x → (fl.prog g f (itemBytes g h d)).writes x = fl.writes x := by
    intro x hx; rw [hwl]; exact countWrites_out hx
  have hFF : AllFF fl.mem f (g.dataEnd i - f) := u.fresh rfl (by omega)
  have mk : ∀ its' f', Layout md.cf g (fl.prog g f (itemBytes g h d)).mem (g.dataEnd i) (g.dataStart i) its' f' →
      f ≤ f' → (md.cf = true → f + k ≤ f') →
      (f' + g.hl ≤ g.dataEnd i → AllFF (fl.prog g f (itemBytes g h d)).mem f' (g.dataEnd i - f')) →
      (its' = its ∨ ∃ d', its' = its ++ [⟨f, h, d'⟩]) →
      (md.cf = false → g.word < 8 → Gaps (Scraps g.word md.was) g (fl.prog g f (itemBytes g h d)).mem (g.dataEnd i)
        (g.dataStart i) its' f') →
      Used md g (fl.prog g f (itemBytes g h d)) i false its' f' := by
    intro its' f' hl hfd hf' hbl' hits hgp
    have hwb : ∀ x, wbound g its x ≤ wbound g its' x := by
      intro x
      rcases hits with rfl | ⟨d', rfl⟩
      · exact Nat.le_refl _
      · exact wbound_append its _ x
    constructor
    · exact hl
    · intro x hx1 hx2; rw [hout x (by omega)]; exact u.startC x hx1 hx2
    · obtain ⟨x, hx1, hx2, hx3⟩ := u.startZ
      exact ⟨x, hx1, hx2, by rw [hout x (by omega)]; exact hx3⟩
    · intro x hx1 hx2; rw [hout x (by omega)]; exact u.endC x hx1 hx2
    · simp
    · intro _ x hx1 hx2; rw [hout x (by omega)]; exact u.endF rfl x hx1 hx2
    · exact fun _ => hbl'
    · intro _ x hx1 hx2 hx3
      have hfb := hl.le w
      cases hcf' : md.cf with
      | true => have := hf' hcf'; rw [hwout x (by omega)]; exact u.freshW rfl x (by omega) hx2 hx3
      | false => rw [show wend md g i = g.pageAddr i by unfold wend; rw [hcf']; simp] at hx2; omega
    · intro x hx1 hx2 hx3
      have h4 := hwb x
      by_cases hx : x < f
      · rw [hwout x (Or.inl hx)]
        have := u.counts x hx1 hx2 hx3; omega
      · have h5 := u.freshW rfl x (by omega) hx2 hx3
        have h6 := one_le_wbound g its' x
        have := countWrites_le (ws := g.writeSize) (wr := fl.writes) (a := f) (n := k) (x := x)
        rw [hwl]; omega
    · intro hnp it hit
      rcases hits with rfl | ⟨d', rfl⟩
      · exact u.np hnp it hit
      · rcases List.mem_append.1 hit with hit | hit
        · exact u.np hnp it hit
        · rw [List.mem_singleton.1 hit]; exact hlow0
    · intro n hn it hit hc
      rcases hits with rfl | ⟨d', rfl⟩
      · exact u.fit n hn it hit hc
      · rcases List.mem_append.1 hit with hit | hit
        · exact u.fit n hn it hit hc
        · rw [List.mem_singleton.1 hit, ← hd]; exact hlim n hn
    · intro hc h4 it hit
      rcases hits with rfl | ⟨d', rfl⟩
      · exact u.heads hc h4 it hit
      · rcases List.mem_append.1 hit with hit | hit
        · exact u.heads hc h4 it hit
        · rw [List.mem_singleton.1 hit]
          obtain ⟨d0, h5, h6⟩ := hpl hc h4
          exact ⟨d0, 0, h5, h6⟩
    · exact hgp
    · intro h2 it hit x h3 h4
      have old : it ∈ its → (fl.prog g f (itemBytes g h d)).mem x = 0xff#8 := by
        intro hit
        have := u.layout.mem_item w hit
        have hn : it.hdr.next g it.addr = it.addr + g.hl + g.roundUp it.hdr.len.toNat := rfl
        rw [hout x (by omega)]; exact u.pads h2 it hit x h3 h4
      rcases hits with rfl | ⟨d', rfl⟩
      · exact old hit
      · rcases List.mem_append.1 hit with hit | hit
        · exact old hit
        · rw [List.mem_singleton.1 hit] at h3 h4
          dsimp only at h3 h4
          by_cases hx : x < f + k
          · obtain ⟨j, rfl⟩ : ∃ j, x = f + j := ⟨x - f, by omega⟩
            rw [hml, programBytes_inside (by rw [List.length_take]; omega), List.getElem_take, hFF _ (by omega) (by omega), and_ff]
            unfold itemBytes
            rw [List.getElem_append_left (by rw [encode_length w]; omega)]
            simp only [encode_head]
            rw [List.getElem_append_right (by rw [headBytes_length]; omega), List.getElem_replicate]
          · rw [hout x (by omega)]; exact hFF x (by omega) (by omega)
  have hrest : ∀ f', f + k ≤ f' → AllFF (fl.prog g f (itemBytes g h d)).mem f' (g.dataEnd i - f') := by
    intro f' hf' x hx1 hx2; rw [hout x (by omega)]; exact hFF x (by omega) (by omega)
  have happ := u.layout.append w (w.dataStart_word i) (by omega)
    (fun x hx1 hx2 => hFF x hx1 (by omega)) hd hlow hfit hmd.word hpl u.gaps (k := k) (fun hc => by rw [hcfk hc, hbl]) (by omega)
  rw [← hml] at happ
  constructor
  · intro hall
    have hkf := hallk hall
    rcases happ with hA | hA | hA
    · omega
    · omega
    · have h3 := hA.2
      rw [tornData_full d (by omega)] at h3
      exact mk _ _ h3.1 (by omega) (fun _ => by omega) (fun _ => hrest _ (by omega)) (Or.inr ⟨d, rfl⟩) h3.2
  · rcases happ with hA | hA | hA
    · exact Or.inl ⟨f, mk _ _ hA.2.1 (by omega) (fun _ => by omega) (fun _ => hrest _ (by omega)) (Or.inl rfl) hA.2.2⟩
    · obtain ⟨_, _, hcf0, f', hf', hbl', hl', hg'⟩ := hA
      exact Or.inl ⟨f', mk _ _ hl' (by omega) (fun hc => by rw [hcf0] at hc; simp at hc)
        (fun hr x hx1 hx2 => hbl' hr x hx1 (by omega)) (Or.inl rfl) hg'⟩
    · exact Or.inr ⟨k - g.hl, mk _ _ hA.2.1 (by omega) (fun _ => by omega) (fun _ => hrest _ (by omega)) (Or.inr ⟨_, rfl⟩) hA.2.2⟩

/-- Clearing the checksum of an item, as far as the power lasts. -/
theorem PageIs.clear {fl : Flash} {i : Nat} {closed : Bool} {pre post : List It} {it : It} {f : Nat} (hmd : md.OK g)
    (u : Used md g fl i closed (pre ++ it :: post) f) (hlow : it.hdr.crc.setWidth 8 ≠ 0#8) (hnp : md.np = false) :
    Used md g (fl.prog g it.addr (Header.encode g { it.hdr with crc := 0#32 })) i closed
      (pre ++ clearIt (fl.got g.hl) it :: post) f := by
  have ho := page_order w i
  have h1 := wend_le w (md := md) i
  have hb := u.bounds w
  have hel := encode_length w { it.hdr with crc := 0#32 }
  have hgot := fl.got_le g.hl
  have hml : (fl.prog g it.addr (Header.encode g { it.hdr with crc := 0#32 })).mem =
      programBytes fl.mem it.addr ((Header.encode g { it.hdr with crc := 0#32 }).take (fl.got g.hl)) := by
    simp only [Flash.prog, hel]
  have hwl : (fl.prog g it.addr (Header.encode g { it.hdr with crc := 0#32 })).writes =
      countWrites g.writeSize fl.writes it.addr (fl.got g.hl) := by
    simp only [Flash.prog, hel]
  generalize hk : fl.got g.hl = k at *
  have hun := u.layout.disjoint w
  have hit := u.layout.mem_item w (it := it) (by simp)
  have hin : it.addr + g.hl ≤ f := by
    have := hit.2.2.1; unfold Header.next at this; omega
  have hout : ∀ x, x < it.addr ∨ it.addr + k ≤ x →
      (fl.prog g it.addr (Header.encode g { it.hdr with crc := 0#32 })).mem x = fl.mem x := by
    intro x hx
    rw [hml]
    apply programBytes_outside
    rw [List.length_take, hel]; omega
  have hwout : ∀ x, x < it.addr ∨ it.addr + k ≤ x →
      (fl.prog g it.addr (Header.encode g { it.hdr with crc := 0#32 })).writes x = fl.writes x := by
    intro x hx; rw [hwl]; exact countWrites_out hx
  constructor
  · rw [hml]; exact u.layout.clear w hmd.word (w.dataStart_word i) k (Nat.le_refl _) (w.dataStart_word i)
      (fun hc h4 => u.heads hc h4 it (by simp)) u.gaps
  · intro x hx1 hx2; rw [hout x (by omega)]; exact u.startC x hx1 hx2
  · obtain ⟨x, hx1, hx2, hx3⟩ := u.startZ
    exact ⟨x, hx1, hx2, by rw [hout x (by omega)]; exact hx3⟩
  · intro x hx1 hx2; rw [hout x (by omega)]; exact u.endC x hx1 hx2
  · intro hc
    obtain ⟨x, hx1, hx2, hx3⟩ := u.endZ hc
    exact ⟨x, hx1, hx2, by rw [hout x (by omega)]; exact hx3⟩
  · intro hc x hx1 hx2; rw [hout x (by omega)]; exact u.endF hc x hx1 hx2
  · intro hc hr x hx1 hx2; rw [hout x (by omega)]; exact u.fresh hc hr x hx1 hx2
  · intro hc x hx1 hx2 hx3; rw [hwout x (by omega)]; exact u.freshW hc x hx1 hx2 hx3
  · intro x hx1 hx2 hx3
    have hold := u.counts x hx1 hx2 hx3
    by_cases hx : it.addr ≤ x ∧ x < it.addr + k
    · have h0 : wbound g (pre ++ it :: post) x = 1 := by
        unfold wbound
        rw [if_neg]
        rw [List.any_eq_true]
        rintro ⟨it', hit', hp⟩
        simp only [Bool.and_eq_true, decide_eq_true_eq] at hp
        rcases List.mem_append.1 hit' with h' | h'
        · have := hun it' (List.mem_append.2 (Or.inl h')); omega
        · rcases List.mem_cons.1 h' with rfl | h'
          · exact hlow hp.2
          · have := hun it' (List.mem_append.2 (Or.inr h')); omega
      have h3 : wbound g (pre ++ clearIt k it :: post) x = 2 := by
        unfold wbound
        rw [if_pos]
        rw [List.any_eq_true]
        refine ⟨clearIt k it, by simp, ?_⟩
        simp only [Bool.and_eq_true, decide_eq_true_eq]
        exact ⟨⟨hx.1, by simp only [clearIt]; omega⟩, clearedCrc_low _ (by omega)⟩
      have := countWrites_le (ws := g.writeSize) (wr := fl.writes) (a := it.addr) (n := k) (x := x)
      rw [hwl]; omega
    · rw [hwout x (by omega)]
      refine Nat.le_trans hold ?_
      unfold wbound
      by_cases ha : (pre ++ it :: post).any (fun it => decide (it.addr ≤ x) && decide (x < it.addr + g.hl) &&
          decide (it.hdr.crc.setWidth 8 = 0#8)) = true
      · rw [if_pos ha, if_pos]
        · exact Nat.le_refl _
        · rw [List.any_eq_true] at ha ⊢
          obtain ⟨it', hit', hp⟩ := ha
          refine ⟨it', ?_, hp⟩
          simp only [Bool.and_eq_true, decide_eq_true_eq] at hp
          rcases List.mem_append.1 hit' with h' | h'
          · exact List.mem_append.2 (Or.inl h')
          · rcases List.mem_cons.1 h' with rfl | h'
            · exact absurd hp.2 hlow
            · exact List.mem_append.2 (Or.inr (List.mem_cons_of_mem _ h'))
      · rw [if_neg ha]; split <;> omega
  · intro h; rw [hnp] at h; simp at h
  · intro n hn x hx hc
    rcases List.mem_append.1 hx with hx | hx
    · exact u.fit n hn x (by simp [hx]) hc
    · rcases List.mem_cons.1 hx with rfl | hx
      · exact u.fit n hn it (by simp) (fun h0 => hlow (by rw [h0]; rfl))
      · exact u.fit n hn x (by simp [hx]) hc
  · intro hc h4 x hx
    rcases List.mem_append.1 hx with hx | hx
    · exact u.heads hc h4 x (by simp [hx])
    · rcases List.mem_cons.1 hx with rfl | hx
      · obtain ⟨d, j, h5, h6⟩ := u.heads hc h4 it (by simp)
        refine ⟨d, max j k, h5, ?_⟩
        simp only [clearIt, h6, clearedCrc_twice]
      · exact u.heads hc h4 x (by simp [hx])
  · intro hc h4
    exact (u.gaps hc h4).change (it' := clearIt k it) rfl rfl (fun x hx => hout x (by omega))
  · intro h2 it' hit' x h3 h4
    have key : ∀ q ∈ pre ++ it :: post, it'.addr = q.addr → (it.addr ≤ x → x < it.addr + k → it.addr + 8 ≤ x) →
        (fl.prog g it.addr (Header.encode g { it.hdr with crc := 0#32 })).mem x = 0xff#8 := by
      intro q hq he h5
      have hold := u.pads h2 q hq x (by omega) (by omega)
      rw [hml]
      by_cases hx : it.addr ≤ x ∧ x < it.addr + k
      · obtain ⟨j, rfl⟩ : ∃ j, x = it.addr + j := ⟨x - it.addr, by omega⟩
        rw [programBytes_inside (by rw [List.length_take]; omega), List.getElem_take, hold, and_ff,
          encode_clear w (hdrAt_some_iff.1 hit.2.1).2.1 (by omega), if_neg (by omega), if_neg (by omega)]
      · rw [← hml, hout x (by omega)]; exact hold
    rcases List.mem_append.1 hit' with hx | hx
    · exact key it' (by simp [hx]) rfl (by have := hun it' (List.mem_append.2 (Or.inl hx)); omega)
    · rcases List.mem_cons.1 hx with rfl | hx
      · exact key it (by simp) rfl (fun _ _ => h3)
      · exact key it' (by simp [hx]) rfl (by have := hun it' (List.mem_append.2 (Or.inr hx)); omega)

/-- Clearing the checksum of an item programs no 1 over a 0. -/
theorem Used.clear_clashes {fl : Flash} {i : Nat} {closed : Bool} {its : List It} {it : It} {f : Nat}
    (u : Used md g fl i closed its f) (hit : it ∈ its) (hdm : md.dmg = false) :
    clashes fl.mem it.addr (Header.encode g { it.hdr with crc := 0#32 }) = 0 := by
  have hm := u.layout.mem_item w hit
  rw [clashes_eq_zero]
  intro j hj
  rw [encode_length w] at hj
  rw [encode_clear w (hdrAt_some_iff.1 hm.2.1).2.1 hj]
  split
  · simp
  · split
    · simp
    · rw [u.pads hdm it hit _ (by omega) (by omega), and_ff]

end

end SeqStorage
