import Verif.Proofs.Layout
/-
Running the code that programs and erases flash.
-/

set_option linter.unusedSectionVars false

namespace SeqStorage
open M

variable {K : Type} [DecidableEq K]

/-- How many of `n` bytes get through. -/
def Flash.got (fl : Flash) (n : Nat) : Nat := (spend fl.fuel n).1

/-- Whether all of `n` bytes get through. -/
def Flash.all (fl : Flash) (n : Nat) : Bool := (spend fl.fuel n).2.2

/-- The flash after programming `bs` at `a` as far as the power lasts. -/
def Flash.prog (g : Geo) (fl : Flash) (a : Nat) (bs : List Byte) : Flash :=
  { fl with
    mem := programBytes fl.mem a (bs.take (fl.got bs.length))
    fuel := (spend fl.fuel bs.length).2.1
    writes := countWrites g.writeSize fl.writes a (fl.got bs.length)
    peak := peakWrites g.writeSize fl.peak fl.writes a (fl.got bs.length)
    stuck := fl.stuck + clashes fl.mem a (bs.take (fl.got bs.length)) }

/-- The flash after erasing page `i` as far as the power lasts. -/
def Flash.clr (g : Geo) (fl : Flash) (i : Nat) : Flash :=
  { fl with
    mem := eraseBytes fl.mem (g.pageAddr i) (fl.got g.eraseSize)
    fuel := (spend fl.fuel g.eraseSize).2.1
    erases := g.pageAddr i :: fl.erases
    writes := resetWrites g.writeSize fl.writes (g.pageAddr i) (fl.got g.eraseSize) }

theorem Flash.got_le (fl : Flash) (n : Nat) : fl.got n ≤ n := spend_le _ _

theorem Flash.got_all {fl : Flash} {n : Nat} (h : fl.all n = true) : fl.got n = n := by
  unfold Flash.all Flash.got at *
  rcases spend_cases fl.fuel n with h' | h'
  · exact h'.2.1
  · rw [h'.1] at h; simp at h

theorem Flash.all_none {fl : Flash} {n : Nat} (h : fl.fuel = none) : fl.all n = true := by
  unfold Flash.all; rw [h]; rfl

theorem Flash.got_none {fl : Flash} {n : Nat} (h : fl.fuel = none) : fl.got n = n :=
  Flash.got_all (Flash.all_none h)

theorem Flash.not_all {fl : Flash} {n : Nat} (h : fl.all n = false) :
    fl.got n < n ∧ fl.fuel = some (fl.got n) ∧ (spend fl.fuel n).2.1 = none := by
  unfold Flash.all Flash.got at *
  rcases spend_cases fl.fuel n with h' | h'
  · rw [h'.1] at h; simp at h
  · exact h'.2

@[simp] theorem Flash.prog_fuel_none {g : Geo} {fl : Flash} {a : Nat} {bs : List Byte}
    (h : fl.fuel = none) : (fl.prog g a bs).fuel = none := by
  simp [Flash.prog, h, spend_none]

@[simp] theorem Flash.clr_fuel_none {g : Geo} {fl : Flash} {i : Nat}
    (h : fl.fuel = none) : (fl.clr g i).fuel = none := by
  simp [Flash.clr, h, spend_none]

theorem Flash.prog_fuel_torn {g : Geo} {fl : Flash} {a : Nat} {bs : List Byte}
    (h : fl.all bs.length = false) : (fl.prog g a bs).fuel = none := (Flash.not_all h).2.2

theorem Flash.clr_fuel_torn {g : Geo} {fl : Flash} {i : Nat}
    (h : fl.all g.eraseSize = false) : (fl.clr g i).fuel = none := (Flash.not_all h).2.2

@[simp] theorem Flash.prog_erases {g : Geo} {fl : Flash} {a : Nat} {bs : List Byte} :
    (fl.prog g a bs).erases = fl.erases := rfl

theorem write_run {g : Geo} (w : g.WF) (s : St K) {a : Nat} {bs : List Byte}
    (ha : g.word ∣ a) (hb : g.word ∣ bs.length) (hne : bs.length ≠ 0) (h1 : g.start ≤ a)
    (h2 : a + bs.length ≤ g.stop) :
    flashWrite g a bs s =
      (if s.fl.all bs.length then .ok () else .error .shutoff, { s with fl := s.fl.prog g a bs }) :=
  flashWrite_run w s ha hb hne h1 h2

theorem erase_run {g : Geo} (w : g.WF) (s : St K) {i : Nat} (hi : i < g.pageCount) :
    flashErase g (g.pageAddr i) (g.pageEnd i) s =
      (if s.fl.all g.eraseSize then .ok () else .error .shutoff, { s with fl := s.fl.clr g i }) := by
  simp only [flashErase, Flash.erase_ok w s.fl hi]; rfl

theorem countWrites_add (ws : Nat) (wr : Nat → Nat) (a n m : Nat) :
    countWrites ws (countWrites ws wr a n) (a + n) m = countWrites ws wr a (n + m) := by
  funext x
  unfold countWrites
  by_cases h1 : x % ws = 0 ∧ a ≤ x ∧ x < a + n
  · rw [if_neg (by omega), if_pos h1, if_pos (by omega)]
  · by_cases h2 : x % ws = 0 ∧ a + n ≤ x ∧ x < a + n + m
    · rw [if_pos h2, if_neg h1, if_pos (by omega)]
    · rw [if_neg h2, if_neg h1, if_neg (by omega)]

theorem peakWrites_add (ws : Nat) (pk wr : Nat → Nat) (a n m : Nat) :
    peakWrites ws (peakWrites ws pk wr a n) (countWrites ws wr a n) (a + n) m = peakWrites ws pk wr a (n + m) := by
  funext x
  unfold peakWrites countWrites
  by_cases h1 : x % ws = 0 ∧ a ≤ x ∧ x < a + n
  · rw [if_neg (by omega), if_pos h1, if_pos (by omega)]
  · by_cases h2 : x % ws = 0 ∧ a + n ≤ x ∧ x < a + n + m
    · rw [if_pos h2, if_neg h1, if_neg h1, if_pos (by omega)]
    · rw [if_neg h2, if_neg h1, if_neg (by omega)]

theorem spend_add_ok {fuel : Option Nat} {n : Nat} (m : Nat) (h : (spend fuel n).2.2 = true) :
    (spend fuel (n + m)).1 = n + (spend (spend fuel n).2.1 m).1 ∧
    (spend fuel (n + m)).2 = (spend (spend fuel n).2.1 m).2 := by
  cases fuel with
  | none => simp [spend]
  | some k =>
    unfold spend at h ⊢
    by_cases h1 : n ≤ k
    · simp only [h1, if_true]
      by_cases h2 : n + m ≤ k
      · simp only [h2, if_true, show m ≤ k - n by omega]
        simp; omega
      · simp only [h2, if_false, show ¬ m ≤ k - n by omega]
        simp; omega
    · simp [h1] at h

theorem spend_add_torn {fuel : Option Nat} {n : Nat} (m : Nat) (h : (spend fuel n).2.2 = false) :
    spend fuel (n + m) = spend fuel n := by
  cases fuel with
  | none => simp [spend] at h
  | some k =>
    unfold spend at h ⊢
    by_cases h1 : n ≤ k
    · simp [h1] at h
    · simp only [h1, if_false, show ¬ n + m ≤ k by omega]

theorem Flash.prog_append_ok {g : Geo} {fl : Flash} {a : Nat} {bs cs : List Byte}
    (h : fl.all bs.length = true) :
    (fl.prog g a bs).prog g (a + bs.length) cs = fl.prog g a (bs ++ cs) ∧
    (fl.prog g a bs).all cs.length = fl.all (bs ++ cs).length := by
  have h1 := spend_add_ok cs.length h
  have hg := Flash.got_all h
  constructor
  · unfold Flash.prog
    simp only [List.length_append]
    have e1 : Flash.got { fl with
        mem := programBytes fl.mem a (bs.take (fl.got bs.length))
        fuel := (spend fl.fuel bs.length).2.1
        writes := countWrites g.writeSize fl.writes a (fl.got bs.length)
        peak := peakWrites g.writeSize fl.peak fl.writes a (fl.got bs.length)
        stuck := fl.stuck + clashes fl.mem a (bs.take (fl.got bs.length)) } cs.length =
        (spend (spend fl.fuel bs.length).2.1 cs.length).1 := rfl
    have e2 : fl.got (bs.length + cs.length) = bs.length + (spend (spend fl.fuel bs.length).2.1 cs.length).1 := h1.1
    rw [e1, e2, hg, List.take_length, countWrites_add, peakWrites_add, h1.2]
    have e3 : (bs ++ cs).take (bs.length + (spend (spend fl.fuel bs.length).2.1 cs.length).1) =
        bs ++ cs.take (spend (spend fl.fuel bs.length).2.1 cs.length).1 := by
      rw [List.take_append, List.take_of_length_le (Nat.le_add_right _ _), Nat.add_sub_cancel_left]
    rw [e3]
    congr 1
    · rw [programBytes_append]
    · rw [clashes_append, clashes_congr (mem := fl.mem) fun x hx => programBytes_outside (Or.inr hx), Nat.add_assoc]
  · unfold Flash.all
    rw [List.length_append, h1.2]; rfl

theorem Flash.prog_append_torn {g : Geo} {fl : Flash} {a : Nat} {bs cs : List Byte}
    (h : fl.all bs.length = false) :
    fl.prog g a (bs ++ cs) = fl.prog g a bs ∧ fl.all (bs ++ cs).length = false := by
  have h1 := spend_add_torn cs.length h
  have hlt := (Flash.not_all h).1
  constructor
  · unfold Flash.prog Flash.got at *
    rw [List.length_append, h1]
    rw [List.take_append_of_le_length (by omega)]
  · unfold Flash.all at *
    rw [List.length_append, h1, h]

/-- Two programs in a row, the second directly behind the first. -/
theorem write_seq {g : Geo} {s : St K} {m m' : M K Unit} {a : Nat} {bs cs : List Byte}
    (h1 : m s = (if s.fl.all bs.length then .ok () else .error .shutoff, { s with fl := s.fl.prog g a bs }))
    (h2 : ∀ s' : St K, m' s' = (if s'.fl.all cs.length then .ok () else .error .shutoff,
      { s' with fl := s'.fl.prog g (a + bs.length) cs })) :
    (do m; m' : M K Unit) s =
      (if s.fl.all (bs ++ cs).length then .ok () else .error .shutoff,
        { s with fl := s.fl.prog g a (bs ++ cs) }) := by
  by_cases hd : s.fl.all bs.length
  · rw [if_pos hd] at h1
    rw [bind_ok h1, h2]
    have := Flash.prog_append_ok (g := g) (a := a) (cs := cs) hd
    simp only [this.1, this.2]
  · rw [if_neg hd] at h1
    rw [bind_err h1]
    have := Flash.prog_append_torn (g := g) (a := a) (cs := cs) (Bool.eq_false_iff.2 hd)
    simp only [this.1, this.2]; rfl

theorem prog_nil {g : Geo} (fl : Flash) (a : Nat) : fl.prog g a [] = fl := by
  have h0 : spend fl.fuel 0 = (0, fl.fuel, true) := by
    unfold spend; cases fl.fuel <;> simp
  unfold Flash.prog Flash.got
  simp only [List.length_nil, List.take_nil, programBytes_nil, h0]
  congr 1
  · funext x
    unfold countWrites
    rw [if_neg (by omega)]
  · funext x
    unfold peakWrites
    rw [if_neg (by omega)]

theorem all_zero (fl : Flash) : fl.all 0 = true := by
  unfold Flash.all spend; cases fl.fuel <;> simp

/-- The cache after `notice_item_written`. -/
def Cache.written (c : Cache K) (g : Geo) (a next : Nat) : Cache K :=
  { c with dirty := true, pp := c.pp.noticeWritten (g.pageIndex a) next }

theorem writeRaw_run {g : Geo} (w : g.WF) (s : St K) {h : Header} {d : List Byte} {a : Nat}
    (hd : d.length = h.len.toNat) (ha : g.word ∣ a) (h1 : g.start ≤ a) (h2 : h.next g a ≤ g.stop) :
    writeRaw g h d a s =
      (if s.fl.all (itemBytes g h d).length then .ok () else .error .shutoff,
        { s with
          fl := s.fl.prog g a (itemBytes g h d)
          cache := s.cache.written g a (h.next g a) }) := by
  have hel := encode_length w h
  have hl := w.hl_ge
  have hrd := w.roundDown_le d.length
  have hru := w.le_roundUp d.length
  have hsum := w.roundDown_add_tail d.length
  have hn : h.next g a = a + g.hl + g.roundUp d.length := by unfold Header.next; rw [hd]
  unfold writeRaw
  rw [bind_run, modifyCache_run]
  simp only
  have key : ∀ s : St K, (do
      writeHeader g h a
      (do
        (if g.roundDown d.length ≠ 0 then flashWrite g (a + g.hl) (d.take (g.roundDown d.length)) else pure () : M K Unit)
        (if (d.drop (g.roundDown d.length)).length ≠ 0 then
          flashWrite g (a + g.hl + g.roundDown d.length) (d.drop (g.roundDown d.length) ++
            List.replicate (g.roundUp (d.drop (g.roundDown d.length)).length - (d.drop (g.roundDown d.length)).length) 0#8)
         else pure () : M K Unit)) : M K Unit) s =
      (if s.fl.all (itemBytes g h d).length then .ok () else .error .shutoff,
        { s with fl := s.fl.prog g a (itemBytes g h d) }) := by
    intro s
    have e3 : itemBytes g h d = h.encode g ++ (d.take (g.roundDown d.length) ++
        (d.drop (g.roundDown d.length) ++
            List.replicate (g.roundUp (d.drop (g.roundDown d.length)).length - (d.drop (g.roundDown d.length)).length) 0#8)) := by
      unfold itemBytes
      rw [← List.append_assoc (d.take _), List.take_append_drop]
      congr 3
      rw [List.length_drop]; omega
    rw [e3]
    apply write_seq
    · exact write_run w s ha (by rw [hel]; exact w.hl_dvd) (by omega) h1 (by omega)
    · intro s'
      rw [hel]
      have hk : (d.take (g.roundDown d.length)).length = g.roundDown d.length := by
        rw [List.length_take]; omega
      have htl : (d.drop (g.roundDown d.length)).length = d.length - g.roundDown d.length := List.length_drop
      have := write_seq (g := g) (s := s') (a := a + g.hl) (bs := d.take (g.roundDown d.length))
        (cs := (d.drop (g.roundDown d.length) ++
            List.replicate (g.roundUp (d.drop (g.roundDown d.length)).length - (d.drop (g.roundDown d.length)).length) 0#8))
        (m := if g.roundDown d.length ≠ 0 then flashWrite g (a + g.hl) (d.take (g.roundDown d.length)) else pure ())
        (m' := if (d.drop (g.roundDown d.length)).length ≠ 0 then
          flashWrite g (a + g.hl + g.roundDown d.length) (d.drop (g.roundDown d.length) ++
            List.replicate (g.roundUp (d.drop (g.roundDown d.length)).length - (d.drop (g.roundDown d.length)).length) 0#8)
         else pure ()) ?_ ?_
      · exact this
      · by_cases hz : g.roundDown d.length = 0
        · simp [hz, prog_nil, all_zero]
        · rw [if_pos hz]
          exact write_run w s' (Nat.dvd_add ha w.hl_dvd) (by rw [hk]; exact w.roundDown_dvd _) (by omega)
            (by omega) (by rw [hk]; omega)
      · intro s''
        by_cases hz : (d.drop (g.roundDown d.length)).length = 0
        · have : d.drop (g.roundDown d.length) = [] := List.length_eq_zero_iff.1 hz
          simp [this, prog_nil, all_zero, w.roundUp_zero]
        · rw [if_pos hz, hk]
          have hr2 := w.le_roundUp (d.drop (g.roundDown d.length)).length
          have hlen : (d.drop (g.roundDown d.length) ++ List.replicate (g.roundUp (d.drop (g.roundDown d.length)).length -
            (d.drop (g.roundDown d.length)).length) 0#8).length = g.roundUp (d.drop (g.roundDown d.length)).length := by
            rw [List.length_append, List.length_replicate]; omega
          refine write_run w s'' (Nat.dvd_add (Nat.dvd_add ha w.hl_dvd) (w.roundDown_dvd _))
            (by rw [hlen]; exact w.roundUp_dvd _) (by omega) (by omega) ?_
          rw [hlen, htl]; omega
  have := key { s with cache := s.cache.written g a (h.next g a) }
  refine Eq.trans ?_ this
  rw [bind_run, bind_run]
  unfold Cache.written
  split
  · by_cases hz : g.roundDown d.length = 0
    · simp only [hz, ne_eq, not_true_eq_false, if_false]; rfl
    · simp only [hz, ne_eq, not_false_eq_true, if_true]
  · rfl

end SeqStorage
