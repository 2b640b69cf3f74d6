import Verif.Src.Spec
/-! Lemmas about coroutines that take a cancellation source. -/
namespace Cobalt.Src
open Cobalt.Cst (CT Filter)

theorem upd_app {α : Type} (f : Nat → α) (i : Nat) (a : α) (j : Nat) :
    upd f i a j = if j = i then a else f j := rfl

theorem clear_app (s : St) (g k : Nat) :
    s.clear g k = if (s.sg g).handler = some k then { s.im k with alive := false } else s.im k := by
  cases h : (s.sg g).handler with
  | none => simp [St.clear, h]
  | some j => simp only [St.clear, h, upd_app, Option.some.injEq]; grind

theorem runs_iff {s : St} {c : Nat} :
    s.runs c = true ↔ (s.co c).alive = true ∧ (s.co c).waits = none := by
  simp [St.runs]

theorem place_app (s : St) (c k : Nat) :
    s.place c k = if (s.co c).impl = some k then { s.im k with slot := some (c, s.nk) }
      else s.im k := by
  cases h : (s.co c).impl with
  | none => simp [St.place, h]
  | some j => simp only [St.place, h, upd_app, Option.some.injEq]; grind

/-- `grind` with what the specification says. -/
macro "src_grind" : tactic => `(tactic| grind [upd_app, clear_app, place_app, Src.src, waitsFor,
  throws, exists_, holder, heard, told, Honest, Fine, filters, bad, Act.use, hears, telling])

/-- What relates the handlers to what has happened. -/
structure Inv (s : St) : Prop where
  src : ∀ c, (s.co c).src = src c s.log
  waits : ∀ c, (s.co c).waits = waitsFor c s.log
  thr : ∀ c, (s.co c).throwIf = throws c s.log
  sgA : ∀ g, (s.sg g).alive = exists_ g s.log
  coD : ∀ c, (s.co c).alive = false → s.co c = {}
  sgD : ∀ g, (s.sg g).alive = false → s.sg g = {}
  cN : ∀ c, s.nc ≤ c → (s.co c).alive = false
  gN : ∀ g, s.ng ≤ g → (s.sg g).alive = false
  hk : ∀ g k, (s.sg g).handler = some k → k < s.ni ∧ (s.im k).alive = true
  hinj : ∀ g h k, (s.sg g).handler = some k → (s.sg h).handler = some k → g = h
  ik : ∀ c k, (s.co c).impl = some k → k < s.ni
  iinj : ∀ c d k, (s.co c).impl = some k → (s.co d).impl = some k → c = d
  si : ∀ c, (s.co c).impl = none ↔ (s.co c).src = none
  own1 : ∀ g, (s.sg g).handler = none → holder g s.log = none
  own2 : ∀ g k c, (s.sg g).handler = some k → holder g s.log = some c →
    (s.co c).src = some g → (s.co c).impl = some k
  own2' : ∀ g k, (s.sg g).handler = some k → holder g s.log ≠ none
  own3 : ∀ c k g, (s.co c).impl = some k → (s.co c).src = some g → (s.im k).alive = true →
    holder g s.log = some c ∧ (s.sg g).handler = some k
  data : ∀ c k, (s.co c).impl = some k → (s.im k).alive = true →
    (s.im k).inF = (filters c s.log).1 ∧ (s.im k).outF = (filters c s.log).2 ∧
      (s.im k).cancelled = heard c s.log
  data0 : ∀ c, (s.co c).impl = none → heard c s.log = .none_
  slot : ∀ c k j, (s.co c).impl = some k → (s.co c).waits = some j →
    (s.im k).slot = some (c, j)
  stale : ∀ k d j, (s.im k).slot = some (d, j) → (s.co d).waits = some j →
    (s.co d).impl = some k
  jN : ∀ k d j, (s.im k).slot = some (d, j) → j < s.nk
  wN : ∀ c j, (s.co c).waits = some j → j < s.nk
  iN : ∀ k, s.ni ≤ k → s.im k = {}
  got : s.got = told s.log
  honest : Honest s.log
  fine : Fine s.log

theorem Inv.start : Inv {} := by
  constructor <;> simp [Src.src, waitsFor, throws, exists_, holder, heard, told, Honest, Fine]

theorem Inv.call {s : St} (h : Inv s) : Inv (s.step .call) := by
  have h1 := h.cN s.nc (Nat.le_refl _)
  have h2 := h.coD _ h1
  have h3 := h.src s.nc
  have h4 := h.waits s.nc
  have h5 := h.thr s.nc
  have h6 := h.data0 s.nc
  obtain ⟨a1, a2, a3, a4, a5, a6, a7, a8, a9, b1, b2, b3, b4, b5, b6, b7, b8, b9, c1, c2, c3, c4, c5,
    c6, c7, c8, c9⟩ := h
  constructor
  all_goals dsimp only [St.step]
  all_goals grind [upd_app]

theorem Inv.make {s : St} (h : Inv s) : Inv (s.step .make) := by
  have h1 := h.gN s.ng (Nat.le_refl _)
  have h2 := h.sgD _ h1
  obtain ⟨a1, a2, a3, a4, a5, a6, a7, a8, a9, b1, b2, b3, b4, b5, b6, b7, b8, b9, c1, c2, c3, c4, c5,
    c6, c7, c8, c9⟩ := h
  constructor
  all_goals dsimp only [St.step, St.note]
  all_goals grind [upd_app, Src.src, waitsFor, throws, exists_, holder, heard, told, Honest, Fine,
    filters, bad, Act.use]

theorem Inv.drop {s : St} (h : Inv s) (g : Nat) :
    Inv (s.step (.drop g)) := by
  dsimp only [St.step]
  split
  next hg =>
    obtain ⟨a1, a2, a3, a4, a5, a6, a7, a8, a9, b1, b2, b3, b4, b5, b6, b7, b8, b9, c1, c2, c3, c4,
      c5, c6, c7, c8, c9⟩ := h
    constructor
    all_goals dsimp only [St.note]
    all_goals grind [upd_app, Src.src, waitsFor, throws, exists_, holder, heard, told, Honest,
      Fine, filters, bad, Act.use, hears, clear_app]
  next => exact h

theorem Inv.leave {s : St} (h : Inv s) (c : Nat) :
    Inv (s.step (.leave c)) := by
  dsimp only [St.step]
  split
  next hg =>
    obtain ⟨hg1, hg2⟩ := runs_iff.1 hg
    obtain ⟨a1, a2, a3, a4, a5, a6, a7, a8, a9, b1, b2, b3, b4, b5, b6, b7, b8, b9, c1, c2, c3, c4,
      c5, c6, c7, c8, c9⟩ := h
    constructor
    all_goals dsimp only [St.note]
    all_goals grind [upd_app, Src.src, waitsFor, throws, exists_, holder, heard, told, Honest,
      Fine, filters, bad, Act.use, hears]
  next => exact h

theorem Inv.opEnds {s : St} (h : Inv s) (c : Nat) :
    Inv (s.step (.opEnds c)) := by
  dsimp only [St.step]
  split
  next hg =>
    obtain ⟨a1, a2, a3, a4, a5, a6, a7, a8, a9, b1, b2, b3, b4, b5, b6, b7, b8, b9, c1, c2, c3, c4,
      c5, c6, c7, c8, c9⟩ := h
    constructor
    all_goals dsimp only [St.note]
    all_goals grind [upd_app, Src.src, waitsFor, throws, exists_, holder, heard, told, Honest,
      Fine, filters, bad, Act.use, hears]
  next => exact h

theorem Inv.throwIf {s : St} (h : Inv s) (c : Nat) (b : Bool) :
    Inv (s.step (.throwIf c b)) := by
  dsimp only [St.step]
  split
  next hg =>
    obtain ⟨hg1, hg2⟩ := runs_iff.1 hg
    obtain ⟨a1, a2, a3, a4, a5, a6, a7, a8, a9, b1, b2, b3, b4, b5, b6, b7, b8, b9, c1, c2, c3, c4,
      c5, c6, c7, c8, c9⟩ := h
    constructor
    all_goals dsimp only [St.note]
    all_goals grind [upd_app, Src.src, waitsFor, throws, exists_, holder, heard, told, Honest,
      Fine, filters, bad, Act.use, hears]
  next => exact h

theorem Inv.ret {s : St} (h : Inv s) (c : Nat) :
    Inv (s.step (.ret c)) := by
  dsimp only [St.step]
  split
  next hg =>
    obtain ⟨hg1, hg2⟩ := runs_iff.1 hg
    obtain ⟨a1, a2, a3, a4, a5, a6, a7, a8, a9, b1, b2, b3, b4, b5, b6, b7, b8, b9, c1, c2, c3, c4,
      c5, c6, c7, c8, c9⟩ := h
    constructor
    all_goals dsimp only [St.note]
    all_goals grind [upd_app, Src.src, waitsFor, throws, exists_, holder, heard, told, Honest,
      Fine, filters, bad, Act.use, hears]
  next => exact h

theorem Inv.renew_took {s : St} (h : Inv s) {c g : Nat} (hg1 : (s.co c).alive = true)
    (hg2 : (s.co c).waits = none) (hg : (s.sg g).alive = true) :
    Inv ((s.renew c g Cst.enableTotal Cst.enableTotal).note (.took c g)) := by
  rw [St.renew, if_pos hg]
  have e1 := h.iN s.ni (Nat.le_refl _)
  obtain ⟨a1, a2, a3, a4, a5, a6, a7, a8, a9, b1, b2, b3, b4, b5, b6, b7, b8, b9, c1, c2, c3, c4,
    c5, c6, c7, c8, c9⟩ := h
  constructor
  all_goals dsimp only [St.note]
  case src => clear a2 a3 a4 a5 a6 a7 a8 a9 b1 b2 b3 b4 b5 b6 b7 b8 b9 c1 c2 c3 c4 c5 c6 c7 c8 c9; src_grind
  case waits => clear a1 a3 a4 a5 a6 a7 a8 a9 b1 b2 b3 b4 b5 b6 b7 b8 b9 c1 c2 c3 c4 c5 c6 c7 c8 c9; src_grind
  case thr => clear a1 a2 a4 a5 a6 a7 a8 a9 b1 b2 b3 b4 b5 b6 b7 b8 b9 c1 c2 c3 c4 c5 c6 c7 c8 c9; src_grind
  case sgA => clear a1 a2 a3 a5 a6 a7 a8 a9 b1 b2 b3 b4 b5 b6 b7 b8 b9 c1 c2 c3 c4 c5 c6 c7 c8 c9; src_grind
  case coD => clear a1 a2 a3 a4 a6 a7 a8 a9 b1 b2 b3 b4 b5 b6 b7 b8 b9 c1 c2 c3 c4 c5 c6 c7 c8 c9; src_grind
  case sgD => clear a1 a2 a3 a4 a5 a7 a8 a9 b1 b2 b3 b4 b5 b6 b7 b8 b9 c1 c2 c3 c4 c5 c6 c7 c8 c9; src_grind
  case cN => clear a1 a2 a3 a4 a5 a6 a8 a9 b1 b2 b3 b4 b5 b6 b7 b8 b9 c1 c2 c3 c4 c5 c6 c7 c8 c9; src_grind
  case gN => clear a1 a2 a3 a4 a5 a6 a7 a9 b1 b2 b3 b4 b5 b6 b7 b8 b9 c1 c2 c3 c4 c5 c6 c7 c8 c9; src_grind
  case hk => clear a1 a2 a3 a4 a5 a6 a7 a8 b2 b3 b4 b5 b6 b7 b8 b9 c1 c2 c3 c4 c5 c6 c7 c8 c9; src_grind
  case hinj => clear a1 a2 a3 a4 a5 a6 a7 a8 b2 b3 b4 b5 b6 b7 b8 b9 c1 c2 c3 c4 c5 c6 c7 c8 c9; src_grind
  case ik => clear a1 a2 a3 a4 a5 a6 a7 a8 a9 b1 b3 b4 b5 b6 b7 b8 b9 c1 c2 c3 c4 c5 c6 c7 c8 c9; src_grind
  case iinj => clear a1 a2 a3 a4 a5 a6 a7 a8 a9 b1 b4 b5 b6 b7 b8 b9 c1 c2 c3 c4 c5 c6 c7 c8 c9; src_grind
  case si => clear a1 a2 a3 a4 a5 a6 a7 a8 a9 b1 b2 b3 b5 b6 b7 b8 b9 c1 c2 c3 c4 c5 c6 c7 c8 c9; src_grind
  case own1 => clear a2 a3 a4 a5 a6 a7 a8 a9 b1 b2 b3 b4 b6 b7 b8 b9 c1 c2 c3 c4 c5 c6 c7 c8 c9; src_grind
  case own2 => clear a2 a3 a4 a5 a6 a7 a8 a9 b1 b2 b3 b4 b5 b7 b8 b9 c1 c2 c3 c4 c5 c6 c7 c8 c9; src_grind
  case own2' => clear a2 a3 a4 a5 a6 a7 a8 a9 b1 b2 b3 b4 b5 b6 b8 b9 c1 c2 c3 c4 c5 c6 c7 c8 c9; src_grind
  case own3 => clear a2 a3 a4 a5 a6 a7 a8 b1 b3 b4 b5 b6 b7 b9 c1 c2 c3 c4 c5 c6 c7 c8 c9; src_grind
  case data => clear a1 a2 a3 a4 a5 a6 a7 a8 b1 b3 b4 b5 b6 b7 b8 c1 c2 c3 c4 c5 c6 c7 c8 c9; src_grind
  case data0 => clear a1 a2 a3 a4 a5 a6 a7 a8 a9 b1 b2 b3 b4 b5 b6 b7 b8 b9 c2 c3 c4 c5 c6 c7 c8 c9; src_grind
  case slot => clear a1 a2 a3 a4 a5 a6 a7 a8 b1 b3 b4 b5 b6 b7 b8 b9 c1 c3 c4 c5 c6 c7 c8 c9; src_grind
  case stale => clear a1 a2 a3 a4 a5 a6 a7 a8 a9 b1 b2 b3 b4 b5 b6 b7 b8 b9 c1 c2 c4 c5 c7 c8 c9; src_grind
  case jN => clear a1 a2 a3 a4 a5 a6 a7 a8 a9 b1 b2 b3 b4 b5 b6 b7 b8 b9 c1 c2 c3 c5 c7 c8 c9; src_grind
  case wN => clear a1 a2 a3 a4 a5 a6 a7 a8 a9 b1 b2 b3 b4 b5 b6 b7 b8 b9 c1 c2 c3 c4 c6 c7 c8 c9; src_grind
  case iN => clear a1 a2 a3 a4 a5 a6 a7 a8 b1 b2 b3 b4 b5 b6 b7 b8 b9 c1 c2 c3 c4 c5 c7 c8 c9; src_grind
  case got => clear a1 a2 a3 a4 a5 a6 a7 a8 a9 b1 b2 b3 b4 b5 b6 b7 b8 b9 c1 c2 c3 c4 c5 c6 c8 c9; src_grind
  case honest => clear a1 a2 a3 a4 a5 a6 a7 a8 a9 b1 b2 b3 b4 b5 b6 b7 b8 b9 c1 c2 c3 c4 c5 c6 c7 c9; src_grind
  case fine => clear a2 a3 a5 a6 a7 a8 a9 b1 b2 b3 b4 b5 b6 b7 b8 b9 c1 c2 c3 c4 c5 c6 c7 c8; src_grind

theorem Inv.renew_reset {s : St} (h : Inv s) {c g : Nat} {i o : Filter}
    (hg1 : (s.co c).alive = true)
    (hg2 : (s.co c).waits = none) (hs : (s.co c).src = some g) (hg : (s.sg g).alive = true) :
    Inv ((s.renew c g i o).note (.reset c i o)) := by
  rw [St.renew, if_pos hg]
  have e1 := h.iN s.ni (Nat.le_refl _)
  obtain ⟨a1, a2, a3, a4, a5, a6, a7, a8, a9, b1, b2, b3, b4, b5, b6, b7, b8, b9, c1, c2, c3, c4,
    c5, c6, c7, c8, c9⟩ := h
  constructor
  all_goals dsimp only [St.note]
  case src => clear a2 a3 a4 a5 a6 a7 a8 a9 b1 b2 b3 b4 b5 b6 b7 b8 b9 c1 c2 c3 c4 c5 c6 c7 c8 c9; src_grind
  case waits => clear a1 a3 a4 a5 a6 a7 a8 a9 b1 b2 b3 b4 b5 b6 b7 b8 b9 c1 c2 c3 c4 c5 c6 c7 c8 c9; src_grind
  case thr => clear a1 a2 a4 a5 a6 a7 a8 a9 b1 b2 b3 b4 b5 b6 b7 b8 b9 c1 c2 c3 c4 c5 c6 c7 c8 c9; src_grind
  case sgA => clear a1 a2 a3 a5 a6 a7 a8 a9 b1 b2 b3 b4 b5 b6 b7 b8 b9 c1 c2 c3 c4 c5 c6 c7 c8 c9; src_grind
  case coD => clear a1 a2 a3 a4 a6 a7 a8 a9 b1 b2 b3 b4 b5 b6 b7 b8 b9 c1 c2 c3 c4 c5 c6 c7 c8 c9; src_grind
  case sgD => clear a1 a2 a3 a4 a5 a7 a8 a9 b1 b2 b3 b4 b5 b6 b7 b8 b9 c1 c2 c3 c4 c5 c6 c7 c8 c9; src_grind
  case cN => clear a1 a2 a3 a4 a5 a6 a8 a9 b1 b2 b3 b4 b5 b6 b7 b8 b9 c1 c2 c3 c4 c5 c6 c7 c8 c9; src_grind
  case gN => clear a1 a2 a3 a4 a5 a6 a7 a9 b1 b2 b3 b4 b5 b6 b7 b8 b9 c1 c2 c3 c4 c5 c6 c7 c8 c9; src_grind
  case hk => clear a1 a2 a3 a4 a5 a6 a7 a8 b2 b3 b4 b5 b6 b7 b8 b9 c1 c2 c3 c4 c5 c6 c7 c8 c9; src_grind
  case hinj => clear a1 a2 a3 a4 a5 a6 a7 a8 b2 b3 b4 b5 b6 b7 b8 b9 c1 c2 c3 c4 c5 c6 c7 c8 c9; src_grind
  case ik => clear a1 a2 a3 a4 a5 a6 a7 a8 a9 b1 b3 b4 b5 b6 b7 b8 b9 c1 c2 c3 c4 c5 c6 c7 c8 c9; src_grind
  case iinj => clear a1 a2 a3 a4 a5 a6 a7 a8 a9 b1 b4 b5 b6 b7 b8 b9 c1 c2 c3 c4 c5 c6 c7 c8 c9; src_grind
  case si => clear a1 a2 a3 a4 a5 a6 a7 a8 a9 b1 b2 b3 b5 b6 b7 b8 b9 c1 c2 c3 c4 c5 c6 c7 c8 c9; src_grind
  case own1 => clear a2 a3 a4 a5 a6 a7 a8 a9 b1 b2 b3 b4 b6 b7 b8 b9 c1 c2 c3 c4 c5 c6 c7 c8 c9; src_grind
  case own2 => clear a2 a3 a4 a5 a6 a7 a8 a9 b1 b2 b3 b4 b5 b7 b8 b9 c1 c2 c3 c4 c5 c6 c7 c8 c9; src_grind
  case own2' => clear a2 a3 a4 a5 a6 a7 a8 a9 b1 b2 b3 b4 b5 b6 b8 b9 c1 c2 c3 c4 c5 c6 c7 c8 c9; src_grind
  case own3 => clear a2 a3 a4 a5 a6 a7 a8 b1 b3 b4 b5 b6 b7 b9 c1 c2 c3 c4 c5 c6 c7 c8 c9; src_grind
  case data => clear a1 a2 a3 a4 a5 a6 a7 a8 b1 b3 b4 b5 b6 b7 b8 c1 c2 c3 c4 c5 c6 c7 c8 c9; src_grind
  case data0 => clear a1 a2 a3 a4 a5 a6 a7 a8 a9 b1 b2 b3 b4 b5 b6 b7 b8 b9 c2 c3 c4 c5 c6 c7 c8 c9; src_grind
  case slot => clear a1 a2 a3 a4 a5 a6 a7 a8 b1 b3 b4 b5 b6 b7 b8 b9 c1 c3 c4 c5 c6 c7 c8 c9; src_grind
  case stale => clear a1 a2 a3 a4 a5 a6 a7 a8 a9 b1 b2 b3 b4 b5 b6 b7 b8 b9 c1 c2 c4 c5 c7 c8 c9; src_grind
  case jN => clear a1 a2 a3 a4 a5 a6 a7 a8 a9 b1 b2 b3 b4 b5 b6 b7 b8 b9 c1 c2 c3 c5 c7 c8 c9; src_grind
  case wN => clear a1 a2 a3 a4 a5 a6 a7 a8 a9 b1 b2 b3 b4 b5 b6 b7 b8 b9 c1 c2 c3 c4 c6 c7 c8 c9; src_grind
  case iN => clear a1 a2 a3 a4 a5 a6 a7 a8 b1 b2 b3 b4 b5 b6 b7 b8 b9 c1 c2 c3 c4 c5 c7 c8 c9; src_grind
  case got => clear a1 a2 a3 a4 a5 a6 a7 a8 a9 b1 b2 b3 b4 b5 b6 b7 b8 b9 c1 c2 c3 c4 c5 c6 c8 c9; src_grind
  case honest => clear a1 a2 a3 a4 a5 a6 a7 a8 a9 b1 b2 b3 b4 b5 b6 b7 b8 b9 c1 c2 c3 c4 c5 c6 c7 c9; src_grind
  case fine => clear a2 a3 a5 a6 a7 a8 a9 b1 b2 b3 b4 b5 b6 b7 b8 b9 c1 c2 c3 c4 c5 c6 c7 c8; src_grind

theorem Inv.reset0 {s : St} (h : Inv s) {c : Nat} {i o : Filter} (hs : (s.co c).src = none) :
    Inv (s.note (.reset c i o)) := by
  obtain ⟨a1, a2, a3, a4, a5, a6, a7, a8, a9, b1, b2, b3, b4, b5, b6, b7, b8, b9, c1, c2, c3, c4,
    c5, c6, c7, c8, c9⟩ := h
  constructor
  all_goals dsimp only [St.note]
  all_goals src_grind

theorem cancelled_spec {s : St} (h : Inv s) {c : Nat} {ct : CT} (e : s.cancelled c = some ct) :
    ct = heard c s.log ∧ ∀ g, src c s.log = some g → holder g s.log = some c := by
  unfold St.cancelled at e
  have h1 := h.src c
  have h2 := h.si c
  split at e
  next hi =>
    have h3 := h.data0 c hi
    grind
  next k hi =>
    split at e
    next ha =>
      have h3 := h.data c k hi ha
      refine ⟨by grind, fun g hg => (h.own3 c k g hi (by rw [h1, hg]) ha).1⟩
    next => exact absurd e (by simp)

theorem cancelled_none {s : St} (h : Inv s) {c : Nat} (e : s.cancelled c = none) :
    ∃ g, src c s.log = some g ∧ holder g s.log ≠ some c := by
  unfold St.cancelled at e
  have h1 := h.src c
  have h2 := h.si c
  split at e
  next hi => exact absurd e (by simp)
  next k hi =>
    split at e
    next ha => exact absurd e (by simp)
    next ha =>
      cases hg : Src.src c s.log with
      | none => grind
      | some g =>
        refine ⟨g, rfl, fun ho => ?_⟩
        cases hh : (s.sg g).handler with
        | none => have := h.own1 g hh; grind
        | some j =>
          have h4 := h.own2 g j c hh ho (by rw [h1, hg])
          have h5 := h.hk g j hh
          grind

theorem Inv.threw {s : St} (h : Inv s) {c : Nat} {ct : CT} (e : s.cancelled c = some ct)
    (hc : ct ≠ .none_ ∧ (s.co c).throwIf = true) : Inv (s.note (.threw c)) := by
  have e1 := cancelled_spec h e
  have e2 := h.thr c
  obtain ⟨a1, a2, a3, a4, a5, a6, a7, a8, a9, b1, b2, b3, b4, b5, b6, b7, b8, b9, c1, c2, c3, c4,
    c5, c6, c7, c8, c9⟩ := h
  constructor
  all_goals dsimp only [St.note]
  all_goals src_grind

theorem Inv.asked {s : St} (h : Inv s) {c : Nat} {ct : CT} (e : s.cancelled c = some ct) :
    Inv (s.note (.asked c ct)) := by
  have e1 := cancelled_spec h e
  obtain ⟨a1, a2, a3, a4, a5, a6, a7, a8, a9, b1, b2, b3, b4, b5, b6, b7, b8, b9, c1, c2, c3, c4,
    c5, c6, c7, c8, c9⟩ := h
  constructor
  all_goals dsimp only [St.note]
  all_goals src_grind

theorem Inv.await {s : St} (h : Inv s) {c : Nat} {ct : CT} (e : s.cancelled c = some ct)
    (hg1 : (s.co c).alive = true) (hg2 : (s.co c).waits = none)
    (hc : ¬(ct ≠ .none_ ∧ (s.co c).throwIf = true)) :
    Inv ({ s with im := s.place c, co := upd s.co c { s.co c with waits := some s.nk }
                  nk := s.nk + 1 }.note (.await c s.nk)) := by
  have e1 := cancelled_spec h e
  have e2 := h.thr c
  obtain ⟨a1, a2, a3, a4, a5, a6, a7, a8, a9, b1, b2, b3, b4, b5, b6, b7, b8, b9, c1, c2, c3, c4,
    c5, c6, c7, c8, c9⟩ := h
  constructor
  all_goals dsimp only [St.note]
  all_goals src_grind

theorem Inv.emit0 {s : St} (h : Inv s) {g : Nat} {ct : CT} (hh : (s.sg g).handler = none) :
    Inv (s.note (.emit g ct)) := by
  have e1 := h.own1 g hh
  obtain ⟨a1, a2, a3, a4, a5, a6, a7, a8, a9, b1, b2, b3, b4, b5, b6, b7, b8, b9, c1, c2, c3, c4,
    c5, c6, c7, c8, c9⟩ := h
  constructor
  all_goals dsimp only [St.note]
  all_goals src_grind

theorem hears_iff {s : St} (h : Inv s) {g k : Nat} (hh : (s.sg g).handler = some k) (c : Nat) :
    hears c g s.log = true ↔ (s.co c).impl = some k := by
  have h1 := h.src c
  have h2 := h.hk g k hh
  constructor
  · intro e
    simp only [hears, decide_eq_true_eq] at e
    exact h.own2 g k c hh e.2 (by rw [h1, e.1])
  · intro e
    cases hs : (s.co c).src with
    | none => have := h.si c; grind
    | some g' =>
      have h3 := h.own3 c k g' e hs h2.2
      have h4 := h.hinj g g' k hh h3.2
      subst h4
      simp only [hears, decide_eq_true_eq]
      exact ⟨by rw [← h1, hs], h3.1⟩

theorem fire_got {s : St} (h : Inv s) {g k : Nat} {ct : CT} (hh : (s.sg g).handler = some k) :
    (s.fire k ct).got = telling g ct s.log ++ told s.log := by
  have h1 := h.hk g k hh
  have hg := h.got
  dsimp only [St.fire]
  cases ho : holder g s.log with
  | none => exact absurd ho (h.own2' g k hh)
  | some c =>
    by_cases hs : src c s.log = some g
    · have hi := (hears_iff h hh c).1 (by simp [hears, hs, ho])
      have hd := h.data c k hi h1.2
      have hw := h.waits c
      rw [hd.1, hd.2.1, ← hg]
      simp only [telling, ho, hs, if_true]
      cases hj : (s.co c).waits with
      | none =>
        rw [← hw, hj]
        dsimp only
        split
        · rfl
        · cases hl : (s.im k).slot with
          | none => rfl
          | some w =>
            obtain ⟨d, j⟩ := w
            simp only [St.tell]
            split
            next hx =>
              have h5 := h.stale k d j hl hx
              have h6 := h.iinj c d k hi h5
              subst h6
              rw [hj] at hx
              exact absurd hx (by simp)
            next => rfl
      | some j =>
        have h4 := h.slot c k j hi hj
        rw [← hw, hj, h4]
        dsimp only
        split
        · rfl
        · simp [St.tell, hj]
    · simp only [telling, ho, hs, if_false, List.nil_append]
      split
      · exact hg
      · cases hl : (s.im k).slot with
        | none => exact hg
        | some w =>
          obtain ⟨d, j⟩ := w
          simp only [St.tell]
          split
          next hx =>
            have h5 := h.stale k d j hl hx
            have h6 := (hears_iff h hh d).2 h5
            simp only [hears, decide_eq_true_eq] at h6
            grind
          next => exact hg

end Cobalt.Src
