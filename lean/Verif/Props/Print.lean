import Verif.Proofs.Print
import Verif.Proofs.Damage
import Verif.Props.Queue
import Verif.Props.QueueCrash
import Verif.Props.Safe
import Verif.Props.Map
import Verif.Props.MapCrash
/-
What the listing of everything in flash shows: C65.
-/

namespace SeqStorage.Props
open M Spec Codec

variable {K : Type} [DecidableEq K] {V : Type} {g : Geo} {s : St K}

/-! ### Reading a listing -/

/-- The data of the items of a page that is in use. Pages that are open or unreadable do not count. -/
def dataOf (p : PageLines) : List (List Byte) :=
  match p.state with
  | .ok .closed | .ok .partialOpen => p.items.filterMap fun l =>
    match l.item with
    | .present _ => some l.data
    | _ => none
  | _ => []

/-- The listing read from page `o` on, around the ring. -/
def readFrom (o : Nat) (ps : List PageLines) : List (List Byte) := (ps.drop o ++ ps.take o).flatMap dataOf

/-- The page is in use. -/
def inUse (p : PageLines) : Prop := p.state = .ok .closed ∨ p.state = .ok .partialOpen

/-- Page `o` is where reading has to start: it is in use, and the page before it in the ring is not closed. Any page will do
when none is in use. -/
def StartsAt (ps : List PageLines) (o : Nat) : Prop :=
  o < ps.length ∧ ((∀ p ∈ ps, ¬ inUse p) ∨
    ∃ p p', ps[o]? = some p ∧ inUse p ∧ ps[if o = 0 then ps.length - 1 else o - 1]? = some p' ∧ p'.state ≠ .ok .closed)

/-- The listing `ps` shows the items `q`: there is a page to start at, and read from there on they are the items. -/
def ShowsItems (ps : List PageLines) (q : List (List Byte)) : Prop :=
  (∃ o, StartsAt ps o) ∧ ∀ o, StartsAt ps o → readFrom o ps = q

/-- Key and value of the data of an item. -/
def entry (kc : KeyCodec K) (vc : ValCodec V) (d : List Byte) : Option (K × V) :=
  match kc.de d with
  | .ok (k, n) =>
    match vc.de (d.drop n) with
    | .ok (v, _) => some (k, v)
    | .error _ => none
  | .error _ => none

/-! ### Proofs -/

theorem dataOf_lines (st : Except Err PageState) (its : List It) (h : st = .ok .closed ∨ st = .ok .partialOpen) :
    dataOf ⟨st, its.map (It.line g)⟩ = datas its := by
  have key : (its.map (It.line g)).filterMap (fun l => match l.item with | .present _ => some l.data | _ => none) = datas its := by
    induction its with
    | nil => rfl
    | cons it its ih =>
      rw [List.map_cons, datas_cons, List.filterMap_cons, ih]
      by_cases hz : it.hdr.crc = 0#32
      · have hp : it.present = false := by
          unfold It.present; rw [hz]; exact decide_eq_false (adapted_ne_zero _)
        simp [It.line, It.kind, hz, hp]
      · cases hp : it.present <;> simp [It.line, It.kind, hz, hp]
  rcases h with rfl | rfl <;> exact key

theorem dataOf_unused {p : PageLines} (h : ¬ inUse p) : dataOf p = [] := by
  unfold dataOf
  unfold inUse at h
  split
  · next hs => exact absurd (Or.inl hs) h
  · next hs => exact absurd (Or.inr hs) h
  · rfl

theorem rotate_range {α : Type} (n o : Nat) (ho : o < n) (f : Nat → α) :
    ((List.range n).map f).drop o ++ ((List.range n).map f).take o = (List.range n).map fun j => f (ringPage n o j) := by
  apply List.ext_getElem?
  intro j
  have hl : ((List.range n).map f).length = n := by simp
  rcases Nat.lt_or_ge j (n - o) with h | h
  · rw [List.getElem?_append_left (by simp; omega), List.getElem?_drop, List.getElem?_map, List.getElem?_map,
      List.getElem?_range (by omega), List.getElem?_range (by omega)]
    simp only [Option.map_some, ringPage, if_pos (by omega : o + j < n)]
  · rw [List.getElem?_append_right (by simp; omega)]
    have : (((List.range n).map f).drop o).length = n - o := by simp
    rw [this]
    rcases Nat.lt_or_ge j n with h' | h'
    · rw [List.getElem?_take_of_lt (by omega), List.getElem?_map, List.getElem?_map, List.getElem?_range (by omega),
        List.getElem?_range (by omega)]
      simp only [Option.map_some, ringPage, if_neg (by omega : ¬ o + j < n)]
      congr 2
      omega
    · rw [List.getElem?_eq_none (by simp; omega), List.getElem?_eq_none (by simp; omega)]

theorem listed_state (w : g.WF) {md : Mode} {σ : Shape} {P : Nat → PK} (h : FS md g s.fl σ P) {its : Nat → List It} :
    ∀ i, i < g.pageCount → (pageLines g s.fl.mem its i).state = σ.st g.pageCount i := by
  intro i hi
  have h1 := getPageState_any w s hi
  rw [getPageState_run w s hi (h.pages i hi), h.st i hi] at h1
  exact (congrArg Prod.fst h1).symm

/-- The listing of a flash in order, read from the oldest page. -/
theorem listing_content (w : g.WF) {md : Mode} {σ : Shape} {P : Nat → PK} (h : FS md g s.fl σ P) (hp : g.eraseSize ≤ 16384) :
    ∃ ps, printItems g s = (.ok ps, s) ∧ ShowsItems ps (content g.pageCount σ P) := by
  obtain ⟨its, hl⟩ := its_exist w (g := g) s.fl.mem
  have key : ∀ o, StartsAt ((List.range g.pageCount).map (pageLines g s.fl.mem its)) o → σ.m ≠ 0 → o = σ.o := by
    rintro o ⟨ho, h1⟩ hm
    rw [List.length_map, List.length_range] at ho
    have hs0 := h.wf.o_lt
    have hst : ∀ i, i < g.pageCount → (pageLines g s.fl.mem its i).state = σ.st g.pageCount i := listed_state w h
    rcases h1 with h1 | ⟨p, p', h1, h2, h3, h4⟩
    · refine absurd ?_ (h1 (pageLines g s.fl.mem its σ.o) (List.mem_map_of_mem (List.mem_range.2 hs0)))
      unfold inUse
      rw [hst _ hs0]
      unfold Shape.st
      rw [show ringPos g.pageCount σ.o σ.o = 0 by unfold ringPos; rw [if_pos (Nat.le_refl _)]; omega, if_pos (by omega)]
      split <;> simp
    · rw [List.getElem?_map, List.getElem?_range ho] at h1
      obtain rfl := Option.some.inj h1
      rw [List.length_map, List.length_range, List.getElem?_map, List.getElem?_range (by split <;> omega)] at h3
      obtain rfl := Option.some.inj h3
      rw [hst _ (by split <;> omega)] at h4
      have hpos : ringPos g.pageCount σ.o o < σ.m := by
        unfold inUse at h2
        rw [hst _ ho] at h2
        rcases h2 with h2 | h2
        · exact (Shape.st_closed.1 h2).1
        · have := (Shape.st_part.1 h2).2; omega
      by_cases he : o = σ.o
      · exact he
      · refine absurd (Shape.st_closed.2 ?_) h4
        have hb : ringPos g.pageCount σ.o (if o = 0 then g.pageCount - 1 else o - 1) + 1 = ringPos g.pageCount σ.o o := by
          unfold ringPos
          split <;> split <;> split <;> omega
        omega
  refine ⟨_, (printItems_run w s (fun i _ => hl i)).1 (fun i _ => ?_), ⟨σ.o, by simpa using h.wf.o_lt, ?_⟩, fun o ho => ?_⟩
  · obtain ⟨f, l⟩ := hl i
    exact printable_small w hp l
  · have hs0 := h.wf.o_lt
    have hm := h.wf.m_le
    by_cases hm0 : σ.m = 0
    · left
      intro p hp
      obtain ⟨i, hi, rfl⟩ := List.mem_map.1 hp
      unfold inUse
      rw [listed_state w h _ (List.mem_range.1 hi)]
      unfold Shape.st
      rw [if_neg (by omega)]
      split <;> simp
    · right
      refine ⟨pageLines g s.fl.mem its σ.o, pageLines g s.fl.mem its (if σ.o = 0 then g.pageCount - 1 else σ.o - 1), ?_, ?_, ?_, ?_⟩
      · rw [List.getElem?_map, List.getElem?_range hs0]; rfl
      · unfold inUse
        rw [listed_state w h _ hs0]
        unfold Shape.st
        rw [show ringPos g.pageCount σ.o σ.o = 0 by unfold ringPos; rw [if_pos (Nat.le_refl _)]; omega, if_pos (by omega)]
        split <;> simp
      · rw [List.length_map, List.length_range, List.getElem?_map, List.getElem?_range (by split <;> omega)]; rfl
      · rw [listed_state w h _ (by split <;> omega)]
        intro hc
        have hc := Shape.st_closed.1 hc
        have hb : ringPos g.pageCount σ.o (if σ.o = 0 then g.pageCount - 1 else σ.o - 1) + 1 = g.pageCount := by
          unfold ringPos
          split <;> split <;> omega
        exact hc.2 ⟨(h.wf.full (by omega)).1, by omega⟩
  by_cases hm0 : σ.m = 0
  · rw [show content g.pageCount σ P = [] by unfold content; rw [hm0]; rfl]
    unfold readFrom
    rw [List.flatMap_eq_nil_iff]
    intro p hp
    have hp : p ∈ (List.range g.pageCount).map (pageLines g s.fl.mem its) := by
      rcases List.mem_append.1 hp with hp | hp
      · exact List.mem_of_mem_drop hp
      · exact List.mem_of_mem_take hp
    obtain ⟨i, hi, rfl⟩ := List.mem_map.1 hp
    apply dataOf_unused
    unfold inUse
    rw [listed_state w h _ (List.mem_range.1 hi)]
    unfold Shape.st
    rw [if_neg (by omega)]
    split <;> simp
  · rw [key o ho hm0]
    unfold readFrom
    rw [rotate_range _ _ h.wf.o_lt, List.flatMap_map]
    have hm := h.wf.m_le
    have hst : ∀ i, i < g.pageCount → stateAt g s.fl.mem i = (P i).st := by
      intro i hi
      have h1 := getPageState_any w s hi
      rw [getPageState_run w s hi (h.pages i hi)] at h1
      exact (congrArg Prod.fst h1).symm
    have hsplit : List.range g.pageCount = List.range' 0 σ.m ++ List.range' σ.m (g.pageCount - σ.m) := by
      have := List.range'_append_1 (s := 0) (m := σ.m) (n := g.pageCount - σ.m)
      rw [Nat.zero_add] at this
      rw [this, List.range_eq_range']
      congr 1
      omega
    rw [hsplit, List.flatMap_append]
    have hused : (List.range' 0 σ.m).flatMap (fun j => dataOf (pageLines g s.fl.mem its (ringPage g.pageCount σ.o j))) =
        content g.pageCount σ P := by
      unfold content seg
      apply flatMap_congr'
      intro j hj
      rw [List.mem_range'_1] at hj
      obtain ⟨c, f, hpk, hlt, l⟩ := page_layout w h (by omega : j < σ.m)
      obtain ⟨f', l'⟩ := hl (ringPage g.pageCount σ.o j)
      unfold pageLines
      rw [(l'.det l).1, dataOf_lines]
      rw [hst _ hlt, hpk]
      cases c
      · exact Or.inr rfl
      · exact Or.inl rfl
    have hrest : (List.range' σ.m (g.pageCount - σ.m)).flatMap
        (fun j => dataOf (pageLines g s.fl.mem its (ringPage g.pageCount σ.o j))) = [] := by
      rw [List.flatMap_eq_nil_iff]
      intro j hj
      rw [List.mem_range'_1] at hj
      have hlt := ringPage_lt (n := g.pageCount) h.wf.o_lt (by omega : j < g.pageCount)
      unfold pageLines dataOf
      dsimp only
      rw [hst _ hlt, h.st _ hlt]
      unfold Shape.st
      rw [ringPos_page h.wf.o_lt (by omega), if_neg (by omega)]
      by_cases hx : σ.corr = true ∧ j + 1 = g.pageCount
      · rw [if_pos hx]
      · rw [if_neg hx]
    rw [hused, hrest, List.append_nil]

/-! ### The theorems -/

/-- C65, any flash. With pages of at most 16 KiB the listing comes to an end without a panic, has an entry for
every page, and leaves everything as it was. -/
theorem listing_harmless (w : g.WF) (hp : g.eraseSize ≤ 16384) (s : St K) :
    ∃ ps, printItems g s = (.ok ps, s) ∧ ps.length = g.pageCount := by
  obtain ⟨its, hl⟩ := its_exist w (g := g) s.fl.mem
  refine ⟨_, (printItems_run w s (fun i _ => hl i)).1 (fun i _ => ?_), by simp⟩
  obtain ⟨f, l⟩ := hl i
  exact printable_small w hp l

/-- C65, larger pages. The listing may panic, and still leaves everything but its own buffer as it was. -/
theorem listing_changes_nothing (w : g.WF) (s : St K) :
    (∃ ps, printItems g s = (.ok ps, s) ∧ ps.length = g.pageCount) ∨ ∃ b, printItems g s = (.error .panic, { s with buf := b }) := by
  obtain ⟨its, hl⟩ := its_exist w (g := g) s.fl.mem
  obtain ⟨h1, h2⟩ := printItems_run w s (its := its) (fun i _ => hl i)
  by_cases h : ∀ i, i < g.pageCount → Printable g (its i)
  · exact Or.inl ⟨_, h1 h, by simp⟩
  · exact Or.inr (h2 h)

/-- C65, queue. The listing, read from the oldest page on around the ring, is what popping would give. -/
theorem listing_shows_queue (w : g.WF) (hp : g.eraseSize ≤ 16384) (h : Reached g s) :
    ∃ q ps, Contents g s q ∧ printItems g s = (.ok ps, s) ∧ ShowsItems ps q := by
  obtain ⟨σ, P, hq⟩ := h.qi w
  obtain ⟨ps, h1, h2⟩ := listing_content w hq.fs hp
  exact ⟨_, ps, hq.contents w, h1, h2⟩

/-- C65, the limit. An item of more than 16 KiB makes the listing panic. -/
theorem listing_panics (w : g.WF) (h : Reached g s) {q : List (List Byte)} (hq : Contents g s q) {d : List Byte} (hd : d ∈ q)
    (hb : 16384 < d.length) : ∃ b, printItems g s = (.error .panic, { s with buf := b }) := by
  obtain ⟨σ, P, h⟩ := h.qi w
  obtain rfl := hq.unique (h.contents w)
  obtain ⟨its, hl⟩ := its_exist w (g := g) s.fl.mem
  refine (printItems_run w s (fun i _ => hl i)).2 fun hp => ?_
  unfold content seg at hd
  obtain ⟨j, hj, hd⟩ := List.mem_flatMap.1 hd
  rw [List.mem_range'_1] at hj
  obtain ⟨it, hm, rfl⟩ := List.mem_map.1 hd
  obtain ⟨hm, hpr⟩ := List.mem_filter.1 hm
  obtain ⟨c, f, hpk, hlt, l⟩ := page_layout w h.fs (by omega : j < σ.m)
  obtain ⟨f', l'⟩ := hl (ringPage g.pageCount σ.o j)
  have hz : it.hdr.crc ≠ 0#32 := by
    intro hz
    unfold It.present at hpr
    rw [hz] at hpr
    exact adapted_ne_zero _ (of_decide_eq_true hpr)
  have h1 := hp _ hlt it (by rw [(l'.det l).1]; exact hm) hz
  have h2 := (l.mem_item w hm).2.2.2
  rw [h2, dataAt_length] at hb
  have := w.le_roundUp it.hdr.len.toNat
  unfold printBuf at h1
  omega

/-- C65, queue after power losses. The remains on pages that are open or unreadable are listed, but do not count. -/
theorem listing_shows_queue_after_crash_partial {D : List Byte → Prop} (w : g.WF) (hp : g.eraseSize ≤ 16384) (hD : NoMix g.word D)
    (hn : 2 ≤ g.pageCount) (h : CrashReached g D s) :
    ∃ q ps, Contents g (powerUp s) q ∧ printItems g s = (.ok ps, s) ∧ ShowsItems ps q := by
  obtain ⟨q, hh⟩ := h.holds w hD hn
  obtain ⟨σ, P, hq, rfl⟩ := id hh
  obtain ⟨ps, h1, h2⟩ := listing_content w hq.fs hp
  exact ⟨_, ps, holds_contents w hD hn (holds_power hh none) rfl, h1, h2⟩

/-- The entries of the listed items. -/
theorem entries_shown (kc : KeyCodec K) (vc : ValCodec V) (its : List It) : (datas its).filterMap (entry kc vc) = shown kc vc its := by
  have hs : shown kc vc its = its.filterMap fun it => if it.present then entry kc vc it.data else none := by
    unfold shown
    congr 1
    funext it
    unfold entry keyOf valOf
    cases kc.de it.data with
    | error e => rfl
    | ok x =>
      obtain ⟨k, n⟩ := x
      dsimp only
      cases vc.de (it.data.drop n) <;> rfl
  rw [hs]
  clear hs
  induction its with
  | nil => rfl
  | cons it its ih =>
    rw [datas_cons, List.filterMap_append, ih, List.filterMap_cons]
    cases hp : it.present with
    | false => rfl
    | true =>
      simp only [if_true, List.filterMap_cons, List.filterMap_nil]
      cases entry kc vc it.data <;> rfl

/-- C65, map. In the listing, read from the oldest page on around the ring, the last entry of a key is the one a fetch gives;
keys without a value have none. -/
theorem listing_shows_map {kc : KeyCodec K} {vc : ValCodec V} {c : Coding K V} {lim : Nat} (w : g.WF) (hp : g.eraseSize ≤ 16384)
    (hc : Codes kc vc c) (hn : 2 ≤ g.pageCount) (h : MReached kc vc c g lim s) :
    ∃ m ps l, Fetches kc vc g lim s m ∧ printItems g s = (.ok ps, s) ∧ ShowsItems ps l ∧
      ∀ k, lastOf k (l.filterMap (entry kc vc)) = m k := by
  obtain ⟨m, hh⟩ := h.holds w hc hn
  obtain ⟨b0, σ, P, h, _, hm⟩ := id hh
  obtain ⟨ps, h1, h2⟩ := listing_content (s := s) w h.good.fs hp
  refine ⟨m, ps, _, hh.fetches w hc hn rfl rfl, h1, h2, ?_⟩
  intro k
  rw [content_items, entries_shown, lastOf_shown hc.lawful k _ h.mp.enc]
  exact hm k

/-- C65, map after power losses. This also holds where `fetch_all_items` is misled, see `iteration_shows_forged_key`. -/
theorem listing_shows_map_after_crash_partial {kc : KeyCodec K} {vc : ValCodec V} {c : Coding K V} {lim : Nat} {D : List Byte → Prop}
    (w : g.WF) (hp : g.eraseSize ≤ 16384) (hc : Codes kc vc c) (hD : NoMix g.word D) (hn : 2 ≤ g.pageCount)
    (h : MCrashReached kc vc c D g lim s) :
    ∃ m ps l, Fetches kc vc g lim (powerUp s) m ∧ printItems g s = (.ok ps, s) ∧ ShowsItems ps l ∧
      ∀ k, lastOf k (l.filterMap (entry kc vc)) = m k := by
  obtain ⟨m, hh⟩ := h.holds w hc hD hn
  obtain ⟨b0, σ, P, h, _, hm⟩ := id hh
  obtain ⟨ps, h1, h2⟩ := listing_content (s := s) w h.good.fs hp
  refine ⟨m, ps, _, (have_fetches w hc hD hn (have_power hh none) rfl).exact, h1, h2, ?_⟩
  intro k
  rw [content_items, entries_shown, lastOf_shown hc.lawful k _ h.mp.enc]
  exact hm k

/-! ### Concrete runs -/

example : ∃ ps, printItems geo2 junkSt = (.ok ps, junkSt) ∧ ps.length = geo2.pageCount :=
  listing_harmless geo2_wf (by decide) junkSt

example : ∃ q ps, Contents geo2 st2 q ∧ printItems geo2 st2 = (.ok ps, st2) ∧ ShowsItems ps q :=
  listing_shows_queue geo2_wf (by decide) st2_reached

example : ∃ q ps, Contents geo8 (powerUp crashed) q ∧ printItems geo8 crashed = (.ok ps, crashed) ∧ ShowsItems ps q :=
  listing_shows_queue_after_crash_partial geo8_wf (by decide) (noMix_wide (by decide : 8 ≤ geo8.word) _) (by decide) crashed_reached

example : ∃ m ps l, Fetches (numKey 2) (numVal 4) geo3 8 mst m ∧ printItems geo3 mst = (.ok ps, mst) ∧ ShowsItems ps l ∧
    ∀ k, lastOf k (l.filterMap (entry (numKey 2) (numVal 4))) = m k :=
  listing_shows_map geo3_wf (by decide) (num_codes 2 4) (by decide) mst_reached

example : ∃ m ps l, Fetches (numKey 2) (numVal 4) geo8 8 (powerUp mcrashed) m ∧ printItems geo8 mcrashed = (.ok ps, mcrashed) ∧
    ShowsItems ps l ∧ ∀ k, lastOf k (l.filterMap (entry (numKey 2) (numVal 4))) = m k :=
  listing_shows_map_after_crash_partial geo8_wf (by decide) (num_codes 2 4) geo8_plain (by decide) mcrashed_reached

/-- Pages of 32 KiB. -/
def geo32k : Geo := ⟨1, 4, 32768, 0, 65536⟩

theorem geo32k_wf : geo32k.WF := by constructor <;> decide

/-- Long items can be pushed, and then the listing panics. -/
theorem long_item_panics (d : List Byte) (hf : FitsPage geo32k.word geo32k.eraseSize d) (hb : 16384 < d.length) :
    ∃ b, printItems geo32k (qcall geo32k (.push d true) freshSt).2 =
      (.error .panic, { (qcall geo32k (.push d true) freshSt).2 with buf := b }) := by
  obtain ⟨_, lost, kept, _, hc, _⟩ := overwriting_push geo32k_wf (s := freshSt) ⟨_, [], fresh_start _, by simp, rfl⟩ d hf
  exact listing_panics geo32k_wf ⟨freshSt, [.push d true], fresh_start _, by intro c hc; rw [List.mem_singleton.1 hc]; trivial, rfl⟩ hc
    (List.mem_append_right _ (List.mem_singleton.2 rfl)) hb

theorem long_fits : FitsPage geo32k.word geo32k.eraseSize (List.replicate 20000 7#8) := by
  unfold FitsPage itemSize; rw [List.length_replicate]; decide

example : ∃ d b, printItems geo32k (qcall geo32k (.push d true) freshSt).2 =
      (.error .panic, { (qcall geo32k (.push d true) freshSt).2 with buf := b }) :=
  ⟨_, long_item_panics (List.replicate 20000 7#8) long_fits (by rw [List.length_replicate]; decide)⟩

end SeqStorage.Props
