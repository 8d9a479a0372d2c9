import Verif.Resolver.Laws
import Mathlib.Tactic.ClearExcept

/-!
# The life of one wait operation, as arithmetic

`View` counts the pending instructions of one operation and the bits and list memberships that
belong to it. `OK` is the invariant. Each theorem below is the effect of one kind of step.
-/

set_option linter.unusedTactic false

namespace Verif.Resolver

/-- Everything about one operation, as numbers (flags are 0 or 1). -/
@[ext] structure View where
  sta : Nat
  fas : Nat
  lis : Nat
  reg : Nat
  tryL : Nat
  tryC : Nat
  trL : Nat
  trC : Nat
  trX : Nat
  un : Nat
  res : Nat
  co : Nat
  l : Nat
  c : Nat
  x : Nat
  inC : Nat
  ph : Nat
  started : Nat
  hasEv : Nat
  reqd : Nat
  evtOk : Nat
  done : Nat

/-- Invariant of one operation. `ph` is the phase (see `Phase.code`): 0 new, 1 fast path pending,
2 fast path finished, 3 waiting, 4 taken, 5 cancelled, 6 finished. -/
structure OK (v : View) : Prop where
  b0 : v.l ≤ 1 ∧ v.c ≤ 1 ∧ v.x ≤ 1 ∧ v.un ≤ 1 ∧ v.reqd ≤ 1 ∧ v.hasEv ≤ 1 ∧ v.ph ≤ 6 ∧ v.started ≤ 1 
  a0 : (v.ph = 0 → v.sta = v.started) ∧ (v.ph ≠ 0 → v.sta = 0)
  a1 : (v.ph = 1 → v.fas = 1) ∧ (v.ph ≠ 1 → v.fas = 0)
  a2 : v.ph < 3 → v.lis + v.reg + v.tryL + v.tryC + v.trL + v.trC + v.trX + v.un + v.res + v.co +
    v.l + v.c + v.x + v.inC = 0
  a3 : v.started = 0 → v.ph = 0 ∧ v.hasEv = 0
  e1 : 3 ≤ v.ph → v.lis + v.reg + v.tryL + v.trL + v.l = 1
  e2 : (v.ph = 3 → v.co + v.trC + v.c = 0) ∧ (4 ≤ v.ph → v.co + v.trC + v.c = 1)
  e3 : 3 ≤ v.ph → v.lis + v.reg + v.tryL + v.inC + v.tryC + v.trX + v.x ≤ 1
  e3a : 3 ≤ v.ph → v.x = 0 → v.ph ≠ 6 →
    v.lis + v.reg + v.tryL + v.inC + v.tryC + v.trX + v.res = 1
  e3b : v.ph = 6 → v.lis + v.reg + v.tryL + v.inC + v.tryC + v.trX = 0
  e4 : v.l = 1 → v.c = 1 → v.x = 1 → v.ph ≠ 6 → v.res = 1
  e4a : v.ph = 6 → v.res = 0
  e4b : v.l = 0 ∨ v.c = 0 → v.res = 0 ∧ v.un = 0 ∧ v.ph ≠ 6
  e6 : v.l = 1 → v.c = 1 → v.x = 0 → v.ph ≠ 6 → v.res = 0 → v.un = 1 ∨ v.reqd = 1
  e7 : v.un = 1 → v.x = 0 → v.ph ≠ 6 ∧ v.res = 0
  e7a : v.un = 1 → v.hasEv = 1
  e8 : v.hasEv = 1 → v.ph ≠ 6 ∨ v.un = 1 → v.tryL + v.tryC + v.trX + v.x ≠ 0 → v.reqd = 1
  e9 : 3 ≤ v.ph → v.lis = 0 → v.evtOk = 1
  e10 : v.reg + v.tryL + v.tryC ≠ 0 → v.hasEv = 1
  e11 : v.ph = 5 → v.trX + v.x = 1
  e13 : v.hasEv = 1 → v.ph = 3 → v.trX + v.x = 0
  e14 : v.hasEv = 0 → 3 ≤ v.ph → v.l = 1 → v.x = 1
  e15 : v.reqd = 1 → v.inC = 0 ∧ v.hasEv = 1
  d1 : ((v.ph = 2 ∨ v.ph = 6) → v.done = 1) ∧ (¬(v.ph = 2 ∨ v.ph = 6) → v.done = 0)

theorem OK.trans0 {v : View} {nl nc nx : Nat} (h : OK v)
    (hpos : nl ≤ v.trL ∧ nc ≤ v.trC ∧ nx ≤ v.trX) (hne : 0 < nl + nc + nx)
    (hnull : v.hasEv = 0 → nl = nx) (hc : v.l + nl = 0 ∨ v.c + nc = 0) :
    OK { v with trL := v.trL - nl, trC := v.trC - nc, trX := v.trX - nx,
                l := v.l + nl, c := v.c + nc, x := v.x + nx, un := v.un, res := v.res } := by
  obtain ⟨b0, a0, a1, a2, a3, e1, e2, e3, e3a, e3b, e4, e4a, e4b, e6, e7, e7a, e8, e9, e10, e11, e13, e14, e15, d1⟩ := h
  have hp : 3 ≤ v.ph := by clear * - a2 hpos hne; omega
  have f1 := e1 hp
  have f3 := e3 hp
  have f2 : v.c + nc ≤ 1 := by clear * - e2 hp hpos; omega
  have f4 : v.ph ≠ 6 := by clear * - e4b e3b f1 e2 hpos hne; omega
  constructor <;> simp only
  · clear * - b0 f1 f3 f2 hpos hc e4b hne; omega
  · exact a0
  · exact a1
  · clear * - hp; omega
  · exact a3
  · clear * - f1 hpos; omega
  · clear * - e2 hpos; omega
  · clear * - f3 hpos; omega
  · clear * - e3a f3 f1 f2 b0 hpos hc; omega
  · exact fun h => absurd h f4
  · clear * - e4 hc; omega
  · exact e4a
  · clear * - e4b hc; omega
  · clear * - hc; omega
  · clear * - e7 e4b hc; omega
  · exact e7a
  · clear * - e8 hpos e7a e4b; omega
  · exact e9
  · exact e10
  · clear * - e11 hpos; omega
  · clear * - e13 hpos; omega
  · clear * - e14 hpos f1 f3 hp hnull; omega
  · exact e15
  · exact d1

theorem OK.transU {v : View} {nl nc nx : Nat} (h : OK v)
    (hpos : nl ≤ v.trL ∧ nc ≤ v.trC ∧ nx ≤ v.trX) (hne : 0 < nl + nc + nx)
    (hnull : v.hasEv = 0 → nl = nx) (hc : v.l + nl = 1 ∧ v.c + nc = 1 ∧ v.x + nx = 0) :
    OK { v with trL := v.trL - nl, trC := v.trC - nc, trX := v.trX - nx,
                l := v.l + nl, c := v.c + nc, x := v.x + nx, un := v.un + 1, res := v.res } := by
  obtain ⟨b0, a0, a1, a2, a3, e1, e2, e3, e3a, e3b, e4, e4a, e4b, e6, e7, e7a, e8, e9, e10, e11, e13, e14, e15, d1⟩ := h
  have hp : 3 ≤ v.ph := by clear * - a2 hpos hne; omega
  have f1 := e1 hp
  have f3 := e3 hp
  have f2 : v.c + nc ≤ 1 := by clear * - e2 hp hpos; omega
  have f4 : v.ph ≠ 6 := by clear * - e4b e3b f1 e2 hpos hne; omega
  constructor <;> simp only
  · clear * - b0 f1 f3 f2 hpos hc e4b hne; omega
  · exact a0
  · exact a1
  · clear * - hp; omega
  · exact a3
  · clear * - f1 hpos; omega
  · clear * - e2 hpos; omega
  · clear * - f3 hpos; omega
  · clear * - e3a f3 f1 f2 b0 hpos hc; omega
  · exact fun h => absurd h f4
  · clear * - hc; omega
  · exact e4a
  · clear * - e4b hc; omega
  · clear * - hc e4b hne; omega
  · clear * - e7 e4b hc f4 hne; omega
  · clear * - hc e14 hp hnull b0; omega
  · clear * - e8 hpos e7a e4b f4; omega
  · exact e9
  · exact e10
  · clear * - e11 hpos; omega
  · clear * - e13 hpos; omega
  · clear * - e14 hpos f1 f3 hp hnull; omega
  · exact e15
  · exact d1

theorem OK.transR {v : View} {nl nc nx : Nat} (h : OK v)
    (hpos : nl ≤ v.trL ∧ nc ≤ v.trC ∧ nx ≤ v.trX) (hne : 0 < nl + nc + nx)
    (hnull : v.hasEv = 0 → nl = nx) (hc : v.l + nl = 1 ∧ v.c + nc = 1 ∧ v.x + nx = 1) :
    OK { v with trL := v.trL - nl, trC := v.trC - nc, trX := v.trX - nx,
                l := v.l + nl, c := v.c + nc, x := v.x + nx, un := v.un, res := v.res + 1 } := by
  obtain ⟨b0, a0, a1, a2, a3, e1, e2, e3, e3a, e3b, e4, e4a, e4b, e6, e7, e7a, e8, e9, e10, e11, e13, e14, e15, d1⟩ := h
  have hp : 3 ≤ v.ph := by clear * - a2 hpos hne; omega
  have f1 := e1 hp
  have f3 := e3 hp
  have f2 : v.c + nc ≤ 1 := by clear * - e2 hp hpos; omega
  have f4 : v.ph ≠ 6 := by clear * - e4b e3b f1 e2 hpos hne; omega
  constructor <;> simp only
  · clear * - b0 f1 f3 f2 hpos hc e4b hne; omega
  · exact a0
  · exact a1
  · clear * - hp; omega
  · exact a3
  · clear * - f1 hpos; omega
  · clear * - e2 hpos; omega
  · clear * - f3 hpos; omega
  · clear * - e3a f3 f1 f2 b0 hpos hc; omega
  · exact fun h => absurd h f4
  · clear * - e4 hc hne e4b b0 e3a f3 hp f4 hpos; omega
  · exact fun h => absurd h f4
  · clear * - e4b hc; omega
  · clear * - hc e4b hne; omega
  · clear * - e7 e4b hc f4 hne; omega
  · exact e7a
  · clear * - e8 hpos e7a e4b f4; omega
  · exact e9
  · exact e10
  · clear * - e11 hpos; omega
  · clear * - e13 hpos; omega
  · clear * - e14 hpos f1 f3 hp hnull; omega
  · exact e15
  · exact d1

theorem OK.begin_ {v : View} (h : OK v) (hs : v.started = 0) (ev : Nat) (rq : Nat) (hr : ev ≤ 1 ∧ rq ≤ 1 ∧ (rq = 1 → ev = 1)) :
    OK { v with started := 1, sta := v.sta + 1, hasEv := ev, reqd := rq } := by
  obtain ⟨b0, a0, a1, a2, a3, e1, e2, e3, e3a, e3b, e4, e4a, e4b, e6, e7, e7a, e8, e9, e10, e11, e13, e14, e15, d1⟩ := h
  have hp := a3 hs
  have f2 := a2 (by omega)
  constructor <;> simp only
  · first | exact b0 | (clear * - b0 hs ev rq hr b0 hp f2 a0; omega) | (clear * - b0 hs ev rq hr b0 hp f2 a0; grind) | simp
  · first | exact a0 | (clear * - a0 hs ev rq hr b0 hp f2 a0; omega) | (clear * - a0 hs ev rq hr b0 hp f2 a0; grind) | simp
  · first | exact a1 | (clear * - a1 hs ev rq hr b0 hp f2 a0; omega) | (clear * - a1 hs ev rq hr b0 hp f2 a0; grind) | simp
  · first | exact a2 | (clear * - a2 hs ev rq hr b0 hp f2 a0; omega) | (clear * - a2 hs ev rq hr b0 hp f2 a0; grind) | simp
  · first | exact a3 | (clear * - a3 hs ev rq hr b0 hp f2 a0; omega) | (clear * - a3 hs ev rq hr b0 hp f2 a0; grind) | simp
  · first | exact e1 | (clear * - e1 hs ev rq hr b0 hp f2 a0; omega) | (clear * - e1 hs ev rq hr b0 hp f2 a0; grind) | simp
  · first | exact e2 | (clear * - e2 hs ev rq hr b0 hp f2 a0; omega) | (clear * - e2 hs ev rq hr b0 hp f2 a0; grind) | simp
  · first | exact e3 | (clear * - e3 hs ev rq hr b0 hp f2 a0; omega) | (clear * - e3 hs ev rq hr b0 hp f2 a0; grind) | simp
  · first | exact e3a | (clear * - e3a hs ev rq hr b0 hp f2 a0; omega) | (clear * - e3a hs ev rq hr b0 hp f2 a0; grind) | simp
  · first | exact e3b | (clear * - e3b hs ev rq hr b0 hp f2 a0; omega) | (clear * - e3b hs ev rq hr b0 hp f2 a0; grind) | simp
  · first | exact e4 | (clear * - e4 hs ev rq hr b0 hp f2 a0; omega) | (clear * - e4 hs ev rq hr b0 hp f2 a0; grind) | simp
  · first | exact e4a | (clear * - e4a hs ev rq hr b0 hp f2 a0; omega) | (clear * - e4a hs ev rq hr b0 hp f2 a0; grind) | simp
  · first | exact e4b | (clear * - e4b hs ev rq hr b0 hp f2 a0; omega) | (clear * - e4b hs ev rq hr b0 hp f2 a0; grind) | simp
  · first | exact e6 | (clear * - e6 hs ev rq hr b0 hp f2 a0; omega) | (clear * - e6 hs ev rq hr b0 hp f2 a0; grind) | simp
  · first | exact e7 | (clear * - e7 hs ev rq hr b0 hp f2 a0; omega) | (clear * - e7 hs ev rq hr b0 hp f2 a0; grind) | simp
  · first | exact e7a | (clear * - e7a hs ev rq hr b0 hp f2 a0; omega) | (clear * - e7a hs ev rq hr b0 hp f2 a0; grind) | simp
  · first | exact e8 | (clear * - e8 hs ev rq hr b0 hp f2 a0; omega) | (clear * - e8 hs ev rq hr b0 hp f2 a0; grind) | simp
  · first | exact e9 | (clear * - e9 hs ev rq hr b0 hp f2 a0; omega) | (clear * - e9 hs ev rq hr b0 hp f2 a0; grind) | simp
  · first | exact e10 | (clear * - e10 hs ev rq hr b0 hp f2 a0; omega) | (clear * - e10 hs ev rq hr b0 hp f2 a0; grind) | simp
  · first | exact e11 | (clear * - e11 hs ev rq hr b0 hp f2 a0; omega) | (clear * - e11 hs ev rq hr b0 hp f2 a0; grind) | simp
  · first | exact e13 | (clear * - e13 hs ev rq hr b0 hp f2 a0; omega) | (clear * - e13 hs ev rq hr b0 hp f2 a0; grind) | simp
  · first | exact e14 | (clear * - e14 hs ev rq hr b0 hp f2 a0; omega) | (clear * - e14 hs ev rq hr b0 hp f2 a0; grind) | simp
  · first | exact e15 | (clear * - e15 hs ev rq hr b0 hp f2 a0; omega) | (clear * - e15 hs ev rq hr b0 hp f2 a0; grind) | simp
  · first | exact d1 | (clear * - d1 hs ev rq hr b0 hp f2 a0; omega) | (clear * - d1 hs ev rq hr b0 hp f2 a0; grind) | simp

theorem OK.startFast {v : View} (h : OK v) (hpos : 1 ≤ v.sta) :
    OK { v with sta := v.sta - 1, ph := 1, fas := v.fas + 1 } := by
  obtain ⟨b0, a0, a1, a2, a3, e1, e2, e3, e3a, e3b, e4, e4a, e4b, e6, e7, e7a, e8, e9, e10, e11, e13, e14, e15, d1⟩ := h
  have hp : v.ph = 0 := by clear * - a0 hpos; omega
  have f2 := a2 (by omega)
  constructor <;> simp only
  · first | exact b0 | (clear * - b0 hpos b0 hp f2 a0 a1 a3; omega) | (clear * - b0 hpos b0 hp f2 a0 a1 a3; grind) | simp
  · first | exact a0 | (clear * - a0 hpos b0 hp f2 a0 a1 a3; omega) | (clear * - a0 hpos b0 hp f2 a0 a1 a3; grind) | simp
  · first | exact a1 | (clear * - a1 hpos b0 hp f2 a0 a1 a3; omega) | (clear * - a1 hpos b0 hp f2 a0 a1 a3; grind) | simp
  · first | exact a2 | (clear * - a2 hpos b0 hp f2 a0 a1 a3; omega) | (clear * - a2 hpos b0 hp f2 a0 a1 a3; grind) | simp
  · first | exact a3 | (clear * - a3 hpos b0 hp f2 a0 a1 a3; omega) | (clear * - a3 hpos b0 hp f2 a0 a1 a3; grind) | simp
  · first | exact e1 | (clear * - e1 hpos b0 hp f2 a0 a1 a3; omega) | (clear * - e1 hpos b0 hp f2 a0 a1 a3; grind) | simp
  · first | exact e2 | (clear * - e2 hpos b0 hp f2 a0 a1 a3; omega) | (clear * - e2 hpos b0 hp f2 a0 a1 a3; grind) | simp
  · first | exact e3 | (clear * - e3 hpos b0 hp f2 a0 a1 a3; omega) | (clear * - e3 hpos b0 hp f2 a0 a1 a3; grind) | simp
  · first | exact e3a | (clear * - e3a hpos b0 hp f2 a0 a1 a3; omega) | (clear * - e3a hpos b0 hp f2 a0 a1 a3; grind) | simp
  · first | exact e3b | (clear * - e3b hpos b0 hp f2 a0 a1 a3; omega) | (clear * - e3b hpos b0 hp f2 a0 a1 a3; grind) | simp
  · first | exact e4 | (clear * - e4 hpos b0 hp f2 a0 a1 a3; omega) | (clear * - e4 hpos b0 hp f2 a0 a1 a3; grind) | simp
  · first | exact e4a | (clear * - e4a hpos b0 hp f2 a0 a1 a3; omega) | (clear * - e4a hpos b0 hp f2 a0 a1 a3; grind) | simp
  · first | exact e4b | (clear * - e4b hpos b0 hp f2 a0 a1 a3; omega) | (clear * - e4b hpos b0 hp f2 a0 a1 a3; grind) | simp
  · first | exact e6 | (clear * - e6 hpos b0 hp f2 a0 a1 a3; omega) | (clear * - e6 hpos b0 hp f2 a0 a1 a3; grind) | simp
  · first | exact e7 | (clear * - e7 hpos b0 hp f2 a0 a1 a3; omega) | (clear * - e7 hpos b0 hp f2 a0 a1 a3; grind) | simp
  · first | exact e7a | (clear * - e7a hpos b0 hp f2 a0 a1 a3; omega) | (clear * - e7a hpos b0 hp f2 a0 a1 a3; grind) | simp
  · first | exact e8 | (clear * - e8 hpos b0 hp f2 a0 a1 a3; omega) | (clear * - e8 hpos b0 hp f2 a0 a1 a3; grind) | simp
  · first | exact e9 | (clear * - e9 hpos b0 hp f2 a0 a1 a3; omega) | (clear * - e9 hpos b0 hp f2 a0 a1 a3; grind) | simp
  · first | exact e10 | (clear * - e10 hpos b0 hp f2 a0 a1 a3; omega) | (clear * - e10 hpos b0 hp f2 a0 a1 a3; grind) | simp
  · first | exact e11 | (clear * - e11 hpos b0 hp f2 a0 a1 a3; omega) | (clear * - e11 hpos b0 hp f2 a0 a1 a3; grind) | simp
  · first | exact e13 | (clear * - e13 hpos b0 hp f2 a0 a1 a3; omega) | (clear * - e13 hpos b0 hp f2 a0 a1 a3; grind) | simp
  · first | exact e14 | (clear * - e14 hpos b0 hp f2 a0 a1 a3; omega) | (clear * - e14 hpos b0 hp f2 a0 a1 a3; grind) | simp
  · first | exact e15 | (clear * - e15 hpos b0 hp f2 a0 a1 a3; omega) | (clear * - e15 hpos b0 hp f2 a0 a1 a3; grind) | simp
  · first | exact d1 | (clear * - d1 hpos b0 hp f2 a0 a1 a3; omega) | (clear * - d1 hpos b0 hp f2 a0 a1 a3; grind) | simp

theorem OK.startSlow {v : View} (h : OK v) (hpos : 1 ≤ v.sta) :
    OK { v with sta := v.sta - 1, ph := 3, lis := v.lis + 1 } := by
  obtain ⟨b0, a0, a1, a2, a3, e1, e2, e3, e3a, e3b, e4, e4a, e4b, e6, e7, e7a, e8, e9, e10, e11, e13, e14, e15, d1⟩ := h
  have hp : v.ph = 0 := by clear * - a0 hpos; omega
  have f2 := a2 (by omega)
  constructor <;> simp only
  · first | exact b0 | (clear * - b0 hpos b0 hp f2 a0 a1 a3; omega) | (clear * - b0 hpos b0 hp f2 a0 a1 a3; grind) | simp
  · first | exact a0 | (clear * - a0 hpos b0 hp f2 a0 a1 a3; omega) | (clear * - a0 hpos b0 hp f2 a0 a1 a3; grind) | simp
  · first | exact a1 | (clear * - a1 hpos b0 hp f2 a0 a1 a3; omega) | (clear * - a1 hpos b0 hp f2 a0 a1 a3; grind) | simp
  · first | exact a2 | (clear * - a2 hpos b0 hp f2 a0 a1 a3; omega) | (clear * - a2 hpos b0 hp f2 a0 a1 a3; grind) | simp
  · first | exact a3 | (clear * - a3 hpos b0 hp f2 a0 a1 a3; omega) | (clear * - a3 hpos b0 hp f2 a0 a1 a3; grind) | simp
  · first | exact e1 | (clear * - e1 hpos b0 hp f2 a0 a1 a3; omega) | (clear * - e1 hpos b0 hp f2 a0 a1 a3; grind) | simp
  · first | exact e2 | (clear * - e2 hpos b0 hp f2 a0 a1 a3; omega) | (clear * - e2 hpos b0 hp f2 a0 a1 a3; grind) | simp
  · first | exact e3 | (clear * - e3 hpos b0 hp f2 a0 a1 a3; omega) | (clear * - e3 hpos b0 hp f2 a0 a1 a3; grind) | simp
  · first | exact e3a | (clear * - e3a hpos b0 hp f2 a0 a1 a3; omega) | (clear * - e3a hpos b0 hp f2 a0 a1 a3; grind) | simp
  · first | exact e3b | (clear * - e3b hpos b0 hp f2 a0 a1 a3; omega) | (clear * - e3b hpos b0 hp f2 a0 a1 a3; grind) | simp
  · first | exact e4 | (clear * - e4 hpos b0 hp f2 a0 a1 a3; omega) | (clear * - e4 hpos b0 hp f2 a0 a1 a3; grind) | simp
  · first | exact e4a | (clear * - e4a hpos b0 hp f2 a0 a1 a3; omega) | (clear * - e4a hpos b0 hp f2 a0 a1 a3; grind) | simp
  · first | exact e4b | (clear * - e4b hpos b0 hp f2 a0 a1 a3; omega) | (clear * - e4b hpos b0 hp f2 a0 a1 a3; grind) | simp
  · first | exact e6 | (clear * - e6 hpos b0 hp f2 a0 a1 a3; omega) | (clear * - e6 hpos b0 hp f2 a0 a1 a3; grind) | simp
  · first | exact e7 | (clear * - e7 hpos b0 hp f2 a0 a1 a3; omega) | (clear * - e7 hpos b0 hp f2 a0 a1 a3; grind) | simp
  · first | exact e7a | (clear * - e7a hpos b0 hp f2 a0 a1 a3; omega) | (clear * - e7a hpos b0 hp f2 a0 a1 a3; grind) | simp
  · first | exact e8 | (clear * - e8 hpos b0 hp f2 a0 a1 a3; omega) | (clear * - e8 hpos b0 hp f2 a0 a1 a3; grind) | simp
  · first | exact e9 | (clear * - e9 hpos b0 hp f2 a0 a1 a3; omega) | (clear * - e9 hpos b0 hp f2 a0 a1 a3; grind) | simp
  · first | exact e10 | (clear * - e10 hpos b0 hp f2 a0 a1 a3; omega) | (clear * - e10 hpos b0 hp f2 a0 a1 a3; grind) | simp
  · first | exact e11 | (clear * - e11 hpos b0 hp f2 a0 a1 a3; omega) | (clear * - e11 hpos b0 hp f2 a0 a1 a3; grind) | simp
  · first | exact e13 | (clear * - e13 hpos b0 hp f2 a0 a1 a3; omega) | (clear * - e13 hpos b0 hp f2 a0 a1 a3; grind) | simp
  · first | exact e14 | (clear * - e14 hpos b0 hp f2 a0 a1 a3; omega) | (clear * - e14 hpos b0 hp f2 a0 a1 a3; grind) | simp
  · first | exact e15 | (clear * - e15 hpos b0 hp f2 a0 a1 a3; omega) | (clear * - e15 hpos b0 hp f2 a0 a1 a3; grind) | simp
  · first | exact d1 | (clear * - d1 hpos b0 hp f2 a0 a1 a3; omega) | (clear * - d1 hpos b0 hp f2 a0 a1 a3; grind) | simp

theorem OK.fastDone {v : View} (h : OK v) (hpos : 1 ≤ v.fas) :
    OK { v with fas := v.fas - 1, ph := 2, done := v.done + 1 } := by
  obtain ⟨b0, a0, a1, a2, a3, e1, e2, e3, e3a, e3b, e4, e4a, e4b, e6, e7, e7a, e8, e9, e10, e11, e13, e14, e15, d1⟩ := h
  have hp : v.ph = 1 := by clear * - a1 hpos; omega
  have f2 := a2 (by omega)
  constructor <;> simp only
  · first | exact b0 | (clear * - b0 hpos b0 hp f2 a0 a1 a3; omega) | (clear * - b0 hpos b0 hp f2 a0 a1 a3; grind) | simp
  · first | exact a0 | (clear * - a0 hpos b0 hp f2 a0 a1 a3; omega) | (clear * - a0 hpos b0 hp f2 a0 a1 a3; grind) | simp
  · first | exact a1 | (clear * - a1 hpos b0 hp f2 a0 a1 a3; omega) | (clear * - a1 hpos b0 hp f2 a0 a1 a3; grind) | simp
  · first | exact a2 | (clear * - a2 hpos b0 hp f2 a0 a1 a3; omega) | (clear * - a2 hpos b0 hp f2 a0 a1 a3; grind) | simp
  · first | exact a3 | (clear * - a3 hpos b0 hp f2 a0 a1 a3; omega) | (clear * - a3 hpos b0 hp f2 a0 a1 a3; grind) | simp
  · first | exact e1 | (clear * - e1 hpos b0 hp f2 a0 a1 a3; omega) | (clear * - e1 hpos b0 hp f2 a0 a1 a3; grind) | simp
  · first | exact e2 | (clear * - e2 hpos b0 hp f2 a0 a1 a3; omega) | (clear * - e2 hpos b0 hp f2 a0 a1 a3; grind) | simp
  · first | exact e3 | (clear * - e3 hpos b0 hp f2 a0 a1 a3; omega) | (clear * - e3 hpos b0 hp f2 a0 a1 a3; grind) | simp
  · first | exact e3a | (clear * - e3a hpos b0 hp f2 a0 a1 a3; omega) | (clear * - e3a hpos b0 hp f2 a0 a1 a3; grind) | simp
  · first | exact e3b | (clear * - e3b hpos b0 hp f2 a0 a1 a3; omega) | (clear * - e3b hpos b0 hp f2 a0 a1 a3; grind) | simp
  · first | exact e4 | (clear * - e4 hpos b0 hp f2 a0 a1 a3; omega) | (clear * - e4 hpos b0 hp f2 a0 a1 a3; grind) | simp
  · first | exact e4a | (clear * - e4a hpos b0 hp f2 a0 a1 a3; omega) | (clear * - e4a hpos b0 hp f2 a0 a1 a3; grind) | simp
  · first | exact e4b | (clear * - e4b hpos b0 hp f2 a0 a1 a3; omega) | (clear * - e4b hpos b0 hp f2 a0 a1 a3; grind) | simp
  · first | exact e6 | (clear * - e6 hpos b0 hp f2 a0 a1 a3; omega) | (clear * - e6 hpos b0 hp f2 a0 a1 a3; grind) | simp
  · first | exact e7 | (clear * - e7 hpos b0 hp f2 a0 a1 a3; omega) | (clear * - e7 hpos b0 hp f2 a0 a1 a3; grind) | simp
  · first | exact e7a | (clear * - e7a hpos b0 hp f2 a0 a1 a3; omega) | (clear * - e7a hpos b0 hp f2 a0 a1 a3; grind) | simp
  · first | exact e8 | (clear * - e8 hpos b0 hp f2 a0 a1 a3; omega) | (clear * - e8 hpos b0 hp f2 a0 a1 a3; grind) | simp
  · first | exact e9 | (clear * - e9 hpos b0 hp f2 a0 a1 a3; omega) | (clear * - e9 hpos b0 hp f2 a0 a1 a3; grind) | simp
  · first | exact e10 | (clear * - e10 hpos b0 hp f2 a0 a1 a3; omega) | (clear * - e10 hpos b0 hp f2 a0 a1 a3; grind) | simp
  · first | exact e11 | (clear * - e11 hpos b0 hp f2 a0 a1 a3; omega) | (clear * - e11 hpos b0 hp f2 a0 a1 a3; grind) | simp
  · first | exact e13 | (clear * - e13 hpos b0 hp f2 a0 a1 a3; omega) | (clear * - e13 hpos b0 hp f2 a0 a1 a3; grind) | simp
  · first | exact e14 | (clear * - e14 hpos b0 hp f2 a0 a1 a3; omega) | (clear * - e14 hpos b0 hp f2 a0 a1 a3; grind) | simp
  · first | exact e15 | (clear * - e15 hpos b0 hp f2 a0 a1 a3; omega) | (clear * - e15 hpos b0 hp f2 a0 a1 a3; grind) | simp
  · first | exact d1 | (clear * - d1 hpos b0 hp f2 a0 a1 a3; omega) | (clear * - d1 hpos b0 hp f2 a0 a1 a3; grind) | simp

theorem OK.listenNull {v : View} (h : OK v) (hpos : 1 ≤ v.lis) (hev : v.hasEv = 0) :
    OK { v with lis := v.lis - 1, trL := v.trL + 1, trX := v.trX + 1, evtOk := 1 } := by
  obtain ⟨b0, a0, a1, a2, a3, e1, e2, e3, e3a, e3b, e4, e4a, e4b, e6, e7, e7a, e8, e9, e10, e11, e13, e14, e15, d1⟩ := h
  have hp : 3 ≤ v.ph := by clear * - a2 hpos; omega
  have f1 := e1 hp
  have f3 := e3 hp
  have f4 : v.ph ≠ 6 := by clear * - e4b e3b f1 e2 hpos; omega
  constructor <;> simp only
  · first | exact b0 | (clear * - b0 hpos hev hp f1 f3 f4 b0; omega) | (clear * - b0 hpos hev hp f1 f3 f4 b0; grind) | simp
  · first | exact a0 | (clear * - a0 hpos hev hp f1 f3 f4 b0; omega) | (clear * - a0 hpos hev hp f1 f3 f4 b0; grind) | simp
  · first | exact a1 | (clear * - a1 hpos hev hp f1 f3 f4 b0; omega) | (clear * - a1 hpos hev hp f1 f3 f4 b0; grind) | simp
  · first | exact a2 | (clear * - a2 hpos hev hp f1 f3 f4 b0; omega) | (clear * - a2 hpos hev hp f1 f3 f4 b0; grind) | simp
  · first | exact a3 | (clear * - a3 hpos hev hp f1 f3 f4 b0; omega) | (clear * - a3 hpos hev hp f1 f3 f4 b0; grind) | simp
  · first | exact e1 | (clear * - e1 hpos hev hp f1 f3 f4 b0; omega) | (clear * - e1 hpos hev hp f1 f3 f4 b0; grind) | simp
  · first | exact e2 | (clear * - e2 hpos hev hp f1 f3 f4 b0; omega) | (clear * - e2 hpos hev hp f1 f3 f4 b0; grind) | simp
  · first | exact e3 | (clear * - e3 hpos hev hp f1 f3 f4 b0; omega) | (clear * - e3 hpos hev hp f1 f3 f4 b0; grind) | simp
  · first | exact e3a | (clear * - e3a hpos hev hp f1 f3 f4 b0; omega) | (clear * - e3a hpos hev hp f1 f3 f4 b0; grind) | simp
  · first | exact e3b | (clear * - e3b hpos hev hp f1 f3 f4 b0; omega) | (clear * - e3b hpos hev hp f1 f3 f4 b0; grind) | simp
  · first | exact e4 | (clear * - e4 hpos hev hp f1 f3 f4 b0; omega) | (clear * - e4 hpos hev hp f1 f3 f4 b0; grind) | simp
  · first | exact e4a | (clear * - e4a hpos hev hp f1 f3 f4 b0; omega) | (clear * - e4a hpos hev hp f1 f3 f4 b0; grind) | simp
  · first | exact e4b | (clear * - e4b hpos hev hp f1 f3 f4 b0; omega) | (clear * - e4b hpos hev hp f1 f3 f4 b0; grind) | simp
  · first | exact e6 | (clear * - e6 hpos hev hp f1 f3 f4 b0; omega) | (clear * - e6 hpos hev hp f1 f3 f4 b0; grind) | simp
  · first | exact e7 | (clear * - e7 hpos hev hp f1 f3 f4 b0; omega) | (clear * - e7 hpos hev hp f1 f3 f4 b0; grind) | simp
  · first | exact e7a | (clear * - e7a hpos hev hp f1 f3 f4 b0; omega) | (clear * - e7a hpos hev hp f1 f3 f4 b0; grind) | simp
  · first | exact e8 | (clear * - e8 hpos hev hp f1 f3 f4 b0; omega) | (clear * - e8 hpos hev hp f1 f3 f4 b0; grind) | simp
  · first | exact e9 | (clear * - e9 hpos hev hp f1 f3 f4 b0; omega) | (clear * - e9 hpos hev hp f1 f3 f4 b0; grind) | simp
  · first | exact e10 | (clear * - e10 hpos hev hp f1 f3 f4 b0; omega) | (clear * - e10 hpos hev hp f1 f3 f4 b0; grind) | simp
  · first | exact e11 | (clear * - e11 hpos hev hp f1 f3 f4 b0; omega) | (clear * - e11 hpos hev hp f1 f3 f4 b0; grind) | simp
  · first | exact e13 | (clear * - e13 hpos hev hp f1 f3 f4 b0; omega) | (clear * - e13 hpos hev hp f1 f3 f4 b0; grind) | simp
  · first | exact e14 | (clear * - e14 hpos hev hp f1 f3 f4 b0; omega) | (clear * - e14 hpos hev hp f1 f3 f4 b0; grind) | simp
  · first | exact e15 | (clear * - e15 hpos hev hp f1 f3 f4 b0; omega) | (clear * - e15 hpos hev hp f1 f3 f4 b0; grind) | simp
  · first | exact d1 | (clear * - d1 hpos hev hp f1 f3 f4 b0; omega) | (clear * - d1 hpos hev hp f1 f3 f4 b0; grind) | simp

theorem OK.listenEv {v : View} (h : OK v) (hpos : 1 ≤ v.lis) (hev : v.hasEv = 1) :
    OK { v with lis := v.lis - 1, reg := v.reg + 1, evtOk := 1 } := by
  obtain ⟨b0, a0, a1, a2, a3, e1, e2, e3, e3a, e3b, e4, e4a, e4b, e6, e7, e7a, e8, e9, e10, e11, e13, e14, e15, d1⟩ := h
  have hp : 3 ≤ v.ph := by clear * - a2 hpos; omega
  have f1 := e1 hp
  have f3 := e3 hp
  have f4 : v.ph ≠ 6 := by clear * - e4b e3b f1 e2 hpos; omega
  constructor <;> simp only
  · first | exact b0 | (clear * - b0 hpos hev hp f1 f3 f4 b0; omega) | (clear * - b0 hpos hev hp f1 f3 f4 b0; grind) | simp
  · first | exact a0 | (clear * - a0 hpos hev hp f1 f3 f4 b0; omega) | (clear * - a0 hpos hev hp f1 f3 f4 b0; grind) | simp
  · first | exact a1 | (clear * - a1 hpos hev hp f1 f3 f4 b0; omega) | (clear * - a1 hpos hev hp f1 f3 f4 b0; grind) | simp
  · first | exact a2 | (clear * - a2 hpos hev hp f1 f3 f4 b0; omega) | (clear * - a2 hpos hev hp f1 f3 f4 b0; grind) | simp
  · first | exact a3 | (clear * - a3 hpos hev hp f1 f3 f4 b0; omega) | (clear * - a3 hpos hev hp f1 f3 f4 b0; grind) | simp
  · first | exact e1 | (clear * - e1 hpos hev hp f1 f3 f4 b0; omega) | (clear * - e1 hpos hev hp f1 f3 f4 b0; grind) | simp
  · first | exact e2 | (clear * - e2 hpos hev hp f1 f3 f4 b0; omega) | (clear * - e2 hpos hev hp f1 f3 f4 b0; grind) | simp
  · first | exact e3 | (clear * - e3 hpos hev hp f1 f3 f4 b0; omega) | (clear * - e3 hpos hev hp f1 f3 f4 b0; grind) | simp
  · first | exact e3a | (clear * - e3a hpos hev hp f1 f3 f4 b0; omega) | (clear * - e3a hpos hev hp f1 f3 f4 b0; grind) | simp
  · first | exact e3b | (clear * - e3b hpos hev hp f1 f3 f4 b0; omega) | (clear * - e3b hpos hev hp f1 f3 f4 b0; grind) | simp
  · first | exact e4 | (clear * - e4 hpos hev hp f1 f3 f4 b0; omega) | (clear * - e4 hpos hev hp f1 f3 f4 b0; grind) | simp
  · first | exact e4a | (clear * - e4a hpos hev hp f1 f3 f4 b0; omega) | (clear * - e4a hpos hev hp f1 f3 f4 b0; grind) | simp
  · first | exact e4b | (clear * - e4b hpos hev hp f1 f3 f4 b0; omega) | (clear * - e4b hpos hev hp f1 f3 f4 b0; grind) | simp
  · first | exact e6 | (clear * - e6 hpos hev hp f1 f3 f4 b0; omega) | (clear * - e6 hpos hev hp f1 f3 f4 b0; grind) | simp
  · first | exact e7 | (clear * - e7 hpos hev hp f1 f3 f4 b0; omega) | (clear * - e7 hpos hev hp f1 f3 f4 b0; grind) | simp
  · first | exact e7a | (clear * - e7a hpos hev hp f1 f3 f4 b0; omega) | (clear * - e7a hpos hev hp f1 f3 f4 b0; grind) | simp
  · first | exact e8 | (clear * - e8 hpos hev hp f1 f3 f4 b0; omega) | (clear * - e8 hpos hev hp f1 f3 f4 b0; grind) | simp
  · first | exact e9 | (clear * - e9 hpos hev hp f1 f3 f4 b0; omega) | (clear * - e9 hpos hev hp f1 f3 f4 b0; grind) | simp
  · first | exact e10 | (clear * - e10 hpos hev hp f1 f3 f4 b0; omega) | (clear * - e10 hpos hev hp f1 f3 f4 b0; grind) | simp
  · first | exact e11 | (clear * - e11 hpos hev hp f1 f3 f4 b0; omega) | (clear * - e11 hpos hev hp f1 f3 f4 b0; grind) | simp
  · first | exact e13 | (clear * - e13 hpos hev hp f1 f3 f4 b0; omega) | (clear * - e13 hpos hev hp f1 f3 f4 b0; grind) | simp
  · first | exact e14 | (clear * - e14 hpos hev hp f1 f3 f4 b0; omega) | (clear * - e14 hpos hev hp f1 f3 f4 b0; grind) | simp
  · first | exact e15 | (clear * - e15 hpos hev hp f1 f3 f4 b0; omega) | (clear * - e15 hpos hev hp f1 f3 f4 b0; grind) | simp
  · first | exact d1 | (clear * - d1 hpos hev hp f1 f3 f4 b0; omega) | (clear * - d1 hpos hev hp f1 f3 f4 b0; grind) | simp

theorem OK.regOk {v : View} (h : OK v) (hpos : 1 ≤ v.reg) (hrq : v.reqd = 0) :
    OK { v with reg := v.reg - 1, inC := v.inC + 1, trL := v.trL + 1 } := by
  obtain ⟨b0, a0, a1, a2, a3, e1, e2, e3, e3a, e3b, e4, e4a, e4b, e6, e7, e7a, e8, e9, e10, e11, e13, e14, e15, d1⟩ := h
  have hp : 3 ≤ v.ph := by clear * - a2 hpos; omega
  have f1 := e1 hp
  have f3 := e3 hp
  have f4 : v.ph ≠ 6 := by clear * - e4b e3b f1 e2 hpos; omega
  constructor <;> simp only
  · first | exact b0 | (clear * - b0 hpos hrq hp f1 f3 f4 b0; omega) | (clear * - b0 hpos hrq hp f1 f3 f4 b0; grind) | simp
  · first | exact a0 | (clear * - a0 hpos hrq hp f1 f3 f4 b0; omega) | (clear * - a0 hpos hrq hp f1 f3 f4 b0; grind) | simp
  · first | exact a1 | (clear * - a1 hpos hrq hp f1 f3 f4 b0; omega) | (clear * - a1 hpos hrq hp f1 f3 f4 b0; grind) | simp
  · first | exact a2 | (clear * - a2 hpos hrq hp f1 f3 f4 b0; omega) | (clear * - a2 hpos hrq hp f1 f3 f4 b0; grind) | simp
  · first | exact a3 | (clear * - a3 hpos hrq hp f1 f3 f4 b0; omega) | (clear * - a3 hpos hrq hp f1 f3 f4 b0; grind) | simp
  · first | exact e1 | (clear * - e1 hpos hrq hp f1 f3 f4 b0; omega) | (clear * - e1 hpos hrq hp f1 f3 f4 b0; grind) | simp
  · first | exact e2 | (clear * - e2 hpos hrq hp f1 f3 f4 b0; omega) | (clear * - e2 hpos hrq hp f1 f3 f4 b0; grind) | simp
  · first | exact e3 | (clear * - e3 hpos hrq hp f1 f3 f4 b0; omega) | (clear * - e3 hpos hrq hp f1 f3 f4 b0; grind) | simp
  · first | exact e3a | (clear * - e3a hpos hrq hp f1 f3 f4 b0; omega) | (clear * - e3a hpos hrq hp f1 f3 f4 b0; grind) | simp
  · first | exact e3b | (clear * - e3b hpos hrq hp f1 f3 f4 b0; omega) | (clear * - e3b hpos hrq hp f1 f3 f4 b0; grind) | simp
  · first | exact e4 | (clear * - e4 hpos hrq hp f1 f3 f4 b0; omega) | (clear * - e4 hpos hrq hp f1 f3 f4 b0; grind) | simp
  · first | exact e4a | (clear * - e4a hpos hrq hp f1 f3 f4 b0; omega) | (clear * - e4a hpos hrq hp f1 f3 f4 b0; grind) | simp
  · first | exact e4b | (clear * - e4b hpos hrq hp f1 f3 f4 b0; omega) | (clear * - e4b hpos hrq hp f1 f3 f4 b0; grind) | simp
  · first | exact e6 | (clear * - e6 hpos hrq hp f1 f3 f4 b0; omega) | (clear * - e6 hpos hrq hp f1 f3 f4 b0; grind) | simp
  · first | exact e7 | (clear * - e7 hpos hrq hp f1 f3 f4 b0; omega) | (clear * - e7 hpos hrq hp f1 f3 f4 b0; grind) | simp
  · first | exact e7a | (clear * - e7a hpos hrq hp f1 f3 f4 b0; omega) | (clear * - e7a hpos hrq hp f1 f3 f4 b0; grind) | simp
  · first | exact e8 | (clear * - e8 hpos hrq hp f1 f3 f4 b0; omega) | (clear * - e8 hpos hrq hp f1 f3 f4 b0; grind) | simp
  · first | exact e9 | (clear * - e9 hpos hrq hp f1 f3 f4 b0; omega) | (clear * - e9 hpos hrq hp f1 f3 f4 b0; grind) | simp
  · first | exact e10 | (clear * - e10 hpos hrq hp f1 f3 f4 b0; omega) | (clear * - e10 hpos hrq hp f1 f3 f4 b0; grind) | simp
  · first | exact e11 | (clear * - e11 hpos hrq hp f1 f3 f4 b0; omega) | (clear * - e11 hpos hrq hp f1 f3 f4 b0; grind) | simp
  · first | exact e13 | (clear * - e13 hpos hrq hp f1 f3 f4 b0; omega) | (clear * - e13 hpos hrq hp f1 f3 f4 b0; grind) | simp
  · first | exact e14 | (clear * - e14 hpos hrq hp f1 f3 f4 b0; omega) | (clear * - e14 hpos hrq hp f1 f3 f4 b0; grind) | simp
  · first | exact e15 | (clear * - e15 hpos hrq hp f1 f3 f4 b0; omega) | (clear * - e15 hpos hrq hp f1 f3 f4 b0; grind) | simp
  · first | exact d1 | (clear * - d1 hpos hrq hp f1 f3 f4 b0; omega) | (clear * - d1 hpos hrq hp f1 f3 f4 b0; grind) | simp

theorem OK.regFail {v : View} (h : OK v) (hpos : 1 ≤ v.reg) (hrq : v.reqd = 1) :
    OK { v with reg := v.reg - 1, tryL := v.tryL + 1 } := by
  obtain ⟨b0, a0, a1, a2, a3, e1, e2, e3, e3a, e3b, e4, e4a, e4b, e6, e7, e7a, e8, e9, e10, e11, e13, e14, e15, d1⟩ := h
  have hp : 3 ≤ v.ph := by clear * - a2 hpos; omega
  have f1 := e1 hp
  have f3 := e3 hp
  have f4 : v.ph ≠ 6 := by clear * - e4b e3b f1 e2 hpos; omega
  constructor <;> simp only
  · first | exact b0 | (clear * - b0 hpos hrq hp f1 f3 f4 b0; omega) | (clear * - b0 hpos hrq hp f1 f3 f4 b0; grind) | simp
  · first | exact a0 | (clear * - a0 hpos hrq hp f1 f3 f4 b0; omega) | (clear * - a0 hpos hrq hp f1 f3 f4 b0; grind) | simp
  · first | exact a1 | (clear * - a1 hpos hrq hp f1 f3 f4 b0; omega) | (clear * - a1 hpos hrq hp f1 f3 f4 b0; grind) | simp
  · first | exact a2 | (clear * - a2 hpos hrq hp f1 f3 f4 b0; omega) | (clear * - a2 hpos hrq hp f1 f3 f4 b0; grind) | simp
  · first | exact a3 | (clear * - a3 hpos hrq hp f1 f3 f4 b0; omega) | (clear * - a3 hpos hrq hp f1 f3 f4 b0; grind) | simp
  · first | exact e1 | (clear * - e1 hpos hrq hp f1 f3 f4 b0; omega) | (clear * - e1 hpos hrq hp f1 f3 f4 b0; grind) | simp
  · first | exact e2 | (clear * - e2 hpos hrq hp f1 f3 f4 b0; omega) | (clear * - e2 hpos hrq hp f1 f3 f4 b0; grind) | simp
  · first | exact e3 | (clear * - e3 hpos hrq hp f1 f3 f4 b0; omega) | (clear * - e3 hpos hrq hp f1 f3 f4 b0; grind) | simp
  · first | exact e3a | (clear * - e3a hpos hrq hp f1 f3 f4 b0; omega) | (clear * - e3a hpos hrq hp f1 f3 f4 b0; grind) | simp
  · first | exact e3b | (clear * - e3b hpos hrq hp f1 f3 f4 b0; omega) | (clear * - e3b hpos hrq hp f1 f3 f4 b0; grind) | simp
  · first | exact e4 | (clear * - e4 hpos hrq hp f1 f3 f4 b0; omega) | (clear * - e4 hpos hrq hp f1 f3 f4 b0; grind) | simp
  · first | exact e4a | (clear * - e4a hpos hrq hp f1 f3 f4 b0; omega) | (clear * - e4a hpos hrq hp f1 f3 f4 b0; grind) | simp
  · first | exact e4b | (clear * - e4b hpos hrq hp f1 f3 f4 b0; omega) | (clear * - e4b hpos hrq hp f1 f3 f4 b0; grind) | simp
  · first | exact e6 | (clear * - e6 hpos hrq hp f1 f3 f4 b0; omega) | (clear * - e6 hpos hrq hp f1 f3 f4 b0; grind) | simp
  · first | exact e7 | (clear * - e7 hpos hrq hp f1 f3 f4 b0; omega) | (clear * - e7 hpos hrq hp f1 f3 f4 b0; grind) | simp
  · first | exact e7a | (clear * - e7a hpos hrq hp f1 f3 f4 b0; omega) | (clear * - e7a hpos hrq hp f1 f3 f4 b0; grind) | simp
  · first | exact e8 | (clear * - e8 hpos hrq hp f1 f3 f4 b0; omega) | (clear * - e8 hpos hrq hp f1 f3 f4 b0; grind) | simp
  · first | exact e9 | (clear * - e9 hpos hrq hp f1 f3 f4 b0; omega) | (clear * - e9 hpos hrq hp f1 f3 f4 b0; grind) | simp
  · first | exact e10 | (clear * - e10 hpos hrq hp f1 f3 f4 b0; omega) | (clear * - e10 hpos hrq hp f1 f3 f4 b0; grind) | simp
  · first | exact e11 | (clear * - e11 hpos hrq hp f1 f3 f4 b0; omega) | (clear * - e11 hpos hrq hp f1 f3 f4 b0; grind) | simp
  · first | exact e13 | (clear * - e13 hpos hrq hp f1 f3 f4 b0; omega) | (clear * - e13 hpos hrq hp f1 f3 f4 b0; grind) | simp
  · first | exact e14 | (clear * - e14 hpos hrq hp f1 f3 f4 b0; omega) | (clear * - e14 hpos hrq hp f1 f3 f4 b0; grind) | simp
  · first | exact e15 | (clear * - e15 hpos hrq hp f1 f3 f4 b0; omega) | (clear * - e15 hpos hrq hp f1 f3 f4 b0; grind) | simp
  · first | exact d1 | (clear * - d1 hpos hrq hp f1 f3 f4 b0; omega) | (clear * - d1 hpos hrq hp f1 f3 f4 b0; grind) | simp

theorem OK.tryLT {v : View} (h : OK v) (hpos : 1 ≤ v.tryL) (hph : v.ph = 3) :
    OK { v with tryL := v.tryL - 1, ph := 5, trL := v.trL + 1, trC := v.trC + 1, trX := v.trX + 1 } := by
  obtain ⟨b0, a0, a1, a2, a3, e1, e2, e3, e3a, e3b, e4, e4a, e4b, e6, e7, e7a, e8, e9, e10, e11, e13, e14, e15, d1⟩ := h
  have hp : 3 ≤ v.ph := by clear * - a2 hpos; omega
  have f1 := e1 hp
  have f3 := e3 hp
  have f4 : v.ph ≠ 6 := by clear * - e4b e3b f1 e2 hpos; omega
  constructor <;> simp only
  · first | exact b0 | (clear * - b0 hpos hph hp f1 f3 f4 b0 e8 e10 e2; omega) | (clear * - b0 hpos hph hp f1 f3 f4 b0 e8 e10 e2; grind) | simp
  · first | exact a0 | (clear * - a0 hpos hph hp f1 f3 f4 b0 e8 e10 e2; omega) | (clear * - a0 hpos hph hp f1 f3 f4 b0 e8 e10 e2; grind) | simp
  · first | exact a1 | (clear * - a1 hpos hph hp f1 f3 f4 b0 e8 e10 e2; omega) | (clear * - a1 hpos hph hp f1 f3 f4 b0 e8 e10 e2; grind) | simp
  · first | exact a2 | (clear * - a2 hpos hph hp f1 f3 f4 b0 e8 e10 e2; omega) | (clear * - a2 hpos hph hp f1 f3 f4 b0 e8 e10 e2; grind) | simp
  · first | exact a3 | (clear * - a3 hpos hph hp f1 f3 f4 b0 e8 e10 e2; omega) | (clear * - a3 hpos hph hp f1 f3 f4 b0 e8 e10 e2; grind) | simp
  · first | exact e1 | (clear * - e1 hpos hph hp f1 f3 f4 b0 e8 e10 e2; omega) | (clear * - e1 hpos hph hp f1 f3 f4 b0 e8 e10 e2; grind) | simp
  · first | exact e2 | (clear * - e2 hpos hph hp f1 f3 f4 b0 e8 e10 e2; omega) | (clear * - e2 hpos hph hp f1 f3 f4 b0 e8 e10 e2; grind) | simp
  · first | exact e3 | (clear * - e3 hpos hph hp f1 f3 f4 b0 e8 e10 e2; omega) | (clear * - e3 hpos hph hp f1 f3 f4 b0 e8 e10 e2; grind) | simp
  · first | exact e3a | (clear * - e3a hpos hph hp f1 f3 f4 b0 e8 e10 e2; omega) | (clear * - e3a hpos hph hp f1 f3 f4 b0 e8 e10 e2; grind) | simp
  · first | exact e3b | (clear * - e3b hpos hph hp f1 f3 f4 b0 e8 e10 e2; omega) | (clear * - e3b hpos hph hp f1 f3 f4 b0 e8 e10 e2; grind) | simp
  · first | exact e4 | (clear * - e4 hpos hph hp f1 f3 f4 b0 e8 e10 e2; omega) | (clear * - e4 hpos hph hp f1 f3 f4 b0 e8 e10 e2; grind) | simp
  · first | exact e4a | (clear * - e4a hpos hph hp f1 f3 f4 b0 e8 e10 e2; omega) | (clear * - e4a hpos hph hp f1 f3 f4 b0 e8 e10 e2; grind) | simp
  · first | exact e4b | (clear * - e4b hpos hph hp f1 f3 f4 b0 e8 e10 e2; omega) | (clear * - e4b hpos hph hp f1 f3 f4 b0 e8 e10 e2; grind) | simp
  · first | exact e6 | (clear * - e6 hpos hph hp f1 f3 f4 b0 e8 e10 e2; omega) | (clear * - e6 hpos hph hp f1 f3 f4 b0 e8 e10 e2; grind) | simp
  · first | exact e7 | (clear * - e7 hpos hph hp f1 f3 f4 b0 e8 e10 e2; omega) | (clear * - e7 hpos hph hp f1 f3 f4 b0 e8 e10 e2; grind) | simp
  · first | exact e7a | (clear * - e7a hpos hph hp f1 f3 f4 b0 e8 e10 e2; omega) | (clear * - e7a hpos hph hp f1 f3 f4 b0 e8 e10 e2; grind) | simp
  · first | exact e8 | (clear * - e8 hpos hph hp f1 f3 f4 b0 e8 e10 e2; omega) | (clear * - e8 hpos hph hp f1 f3 f4 b0 e8 e10 e2; grind) | simp
  · first | exact e9 | (clear * - e9 hpos hph hp f1 f3 f4 b0 e8 e10 e2; omega) | (clear * - e9 hpos hph hp f1 f3 f4 b0 e8 e10 e2; grind) | simp
  · first | exact e10 | (clear * - e10 hpos hph hp f1 f3 f4 b0 e8 e10 e2; omega) | (clear * - e10 hpos hph hp f1 f3 f4 b0 e8 e10 e2; grind) | simp
  · first | exact e11 | (clear * - e11 hpos hph hp f1 f3 f4 b0 e8 e10 e2; omega) | (clear * - e11 hpos hph hp f1 f3 f4 b0 e8 e10 e2; grind) | simp
  · first | exact e13 | (clear * - e13 hpos hph hp f1 f3 f4 b0 e8 e10 e2; omega) | (clear * - e13 hpos hph hp f1 f3 f4 b0 e8 e10 e2; grind) | simp
  · first | exact e14 | (clear * - e14 hpos hph hp f1 f3 f4 b0 e8 e10 e2; omega) | (clear * - e14 hpos hph hp f1 f3 f4 b0 e8 e10 e2; grind) | simp
  · first | exact e15 | (clear * - e15 hpos hph hp f1 f3 f4 b0 e8 e10 e2; omega) | (clear * - e15 hpos hph hp f1 f3 f4 b0 e8 e10 e2; grind) | simp
  · first | exact d1 | (clear * - d1 hpos hph hp f1 f3 f4 b0 e8 e10 e2; omega) | (clear * - d1 hpos hph hp f1 f3 f4 b0 e8 e10 e2; grind) | simp

theorem OK.tryLF {v : View} (h : OK v) (hpos : 1 ≤ v.tryL) (hph : v.ph = 4) :
    OK { v with tryL := v.tryL - 1, trL := v.trL + 1, trX := v.trX + 1 } := by
  obtain ⟨b0, a0, a1, a2, a3, e1, e2, e3, e3a, e3b, e4, e4a, e4b, e6, e7, e7a, e8, e9, e10, e11, e13, e14, e15, d1⟩ := h
  have hp : 3 ≤ v.ph := by clear * - a2 hpos; omega
  have f1 := e1 hp
  have f3 := e3 hp
  have f4 : v.ph ≠ 6 := by clear * - e4b e3b f1 e2 hpos; omega
  constructor <;> simp only
  · first | exact b0 | (clear * - b0 hpos hph hp f1 f3 f4 b0 e8 e10 e2; omega) | (clear * - b0 hpos hph hp f1 f3 f4 b0 e8 e10 e2; grind) | simp
  · first | exact a0 | (clear * - a0 hpos hph hp f1 f3 f4 b0 e8 e10 e2; omega) | (clear * - a0 hpos hph hp f1 f3 f4 b0 e8 e10 e2; grind) | simp
  · first | exact a1 | (clear * - a1 hpos hph hp f1 f3 f4 b0 e8 e10 e2; omega) | (clear * - a1 hpos hph hp f1 f3 f4 b0 e8 e10 e2; grind) | simp
  · first | exact a2 | (clear * - a2 hpos hph hp f1 f3 f4 b0 e8 e10 e2; omega) | (clear * - a2 hpos hph hp f1 f3 f4 b0 e8 e10 e2; grind) | simp
  · first | exact a3 | (clear * - a3 hpos hph hp f1 f3 f4 b0 e8 e10 e2; omega) | (clear * - a3 hpos hph hp f1 f3 f4 b0 e8 e10 e2; grind) | simp
  · first | exact e1 | (clear * - e1 hpos hph hp f1 f3 f4 b0 e8 e10 e2; omega) | (clear * - e1 hpos hph hp f1 f3 f4 b0 e8 e10 e2; grind) | simp
  · first | exact e2 | (clear * - e2 hpos hph hp f1 f3 f4 b0 e8 e10 e2; omega) | (clear * - e2 hpos hph hp f1 f3 f4 b0 e8 e10 e2; grind) | simp
  · first | exact e3 | (clear * - e3 hpos hph hp f1 f3 f4 b0 e8 e10 e2; omega) | (clear * - e3 hpos hph hp f1 f3 f4 b0 e8 e10 e2; grind) | simp
  · first | exact e3a | (clear * - e3a hpos hph hp f1 f3 f4 b0 e8 e10 e2; omega) | (clear * - e3a hpos hph hp f1 f3 f4 b0 e8 e10 e2; grind) | simp
  · first | exact e3b | (clear * - e3b hpos hph hp f1 f3 f4 b0 e8 e10 e2; omega) | (clear * - e3b hpos hph hp f1 f3 f4 b0 e8 e10 e2; grind) | simp
  · first | exact e4 | (clear * - e4 hpos hph hp f1 f3 f4 b0 e8 e10 e2; omega) | (clear * - e4 hpos hph hp f1 f3 f4 b0 e8 e10 e2; grind) | simp
  · first | exact e4a | (clear * - e4a hpos hph hp f1 f3 f4 b0 e8 e10 e2; omega) | (clear * - e4a hpos hph hp f1 f3 f4 b0 e8 e10 e2; grind) | simp
  · first | exact e4b | (clear * - e4b hpos hph hp f1 f3 f4 b0 e8 e10 e2; omega) | (clear * - e4b hpos hph hp f1 f3 f4 b0 e8 e10 e2; grind) | simp
  · first | exact e6 | (clear * - e6 hpos hph hp f1 f3 f4 b0 e8 e10 e2; omega) | (clear * - e6 hpos hph hp f1 f3 f4 b0 e8 e10 e2; grind) | simp
  · first | exact e7 | (clear * - e7 hpos hph hp f1 f3 f4 b0 e8 e10 e2; omega) | (clear * - e7 hpos hph hp f1 f3 f4 b0 e8 e10 e2; grind) | simp
  · first | exact e7a | (clear * - e7a hpos hph hp f1 f3 f4 b0 e8 e10 e2; omega) | (clear * - e7a hpos hph hp f1 f3 f4 b0 e8 e10 e2; grind) | simp
  · first | exact e8 | (clear * - e8 hpos hph hp f1 f3 f4 b0 e8 e10 e2; omega) | (clear * - e8 hpos hph hp f1 f3 f4 b0 e8 e10 e2; grind) | simp
  · first | exact e9 | (clear * - e9 hpos hph hp f1 f3 f4 b0 e8 e10 e2; omega) | (clear * - e9 hpos hph hp f1 f3 f4 b0 e8 e10 e2; grind) | simp
  · first | exact e10 | (clear * - e10 hpos hph hp f1 f3 f4 b0 e8 e10 e2; omega) | (clear * - e10 hpos hph hp f1 f3 f4 b0 e8 e10 e2; grind) | simp
  · first | exact e11 | (clear * - e11 hpos hph hp f1 f3 f4 b0 e8 e10 e2; omega) | (clear * - e11 hpos hph hp f1 f3 f4 b0 e8 e10 e2; grind) | simp
  · first | exact e13 | (clear * - e13 hpos hph hp f1 f3 f4 b0 e8 e10 e2; omega) | (clear * - e13 hpos hph hp f1 f3 f4 b0 e8 e10 e2; grind) | simp
  · first | exact e14 | (clear * - e14 hpos hph hp f1 f3 f4 b0 e8 e10 e2; omega) | (clear * - e14 hpos hph hp f1 f3 f4 b0 e8 e10 e2; grind) | simp
  · first | exact e15 | (clear * - e15 hpos hph hp f1 f3 f4 b0 e8 e10 e2; omega) | (clear * - e15 hpos hph hp f1 f3 f4 b0 e8 e10 e2; grind) | simp
  · first | exact d1 | (clear * - d1 hpos hph hp f1 f3 f4 b0 e8 e10 e2; omega) | (clear * - d1 hpos hph hp f1 f3 f4 b0 e8 e10 e2; grind) | simp

theorem OK.tryCT {v : View} (h : OK v) (hpos : 1 ≤ v.tryC) (hph : v.ph = 3) :
    OK { v with tryC := v.tryC - 1, ph := 5, trC := v.trC + 1, trX := v.trX + 1 } := by
  obtain ⟨b0, a0, a1, a2, a3, e1, e2, e3, e3a, e3b, e4, e4a, e4b, e6, e7, e7a, e8, e9, e10, e11, e13, e14, e15, d1⟩ := h
  have hp : 3 ≤ v.ph := by clear * - a2 hpos; omega
  have f1 := e1 hp
  have f3 := e3 hp
  have f4 : v.ph ≠ 6 := by clear * - e4b e3b f1 e2 hpos; omega
  constructor <;> simp only
  · first | exact b0 | (clear * - b0 hpos hph hp f1 f3 f4 b0 e8 e10 e2; omega) | (clear * - b0 hpos hph hp f1 f3 f4 b0 e8 e10 e2; grind) | simp
  · first | exact a0 | (clear * - a0 hpos hph hp f1 f3 f4 b0 e8 e10 e2; omega) | (clear * - a0 hpos hph hp f1 f3 f4 b0 e8 e10 e2; grind) | simp
  · first | exact a1 | (clear * - a1 hpos hph hp f1 f3 f4 b0 e8 e10 e2; omega) | (clear * - a1 hpos hph hp f1 f3 f4 b0 e8 e10 e2; grind) | simp
  · first | exact a2 | (clear * - a2 hpos hph hp f1 f3 f4 b0 e8 e10 e2; omega) | (clear * - a2 hpos hph hp f1 f3 f4 b0 e8 e10 e2; grind) | simp
  · first | exact a3 | (clear * - a3 hpos hph hp f1 f3 f4 b0 e8 e10 e2; omega) | (clear * - a3 hpos hph hp f1 f3 f4 b0 e8 e10 e2; grind) | simp
  · first | exact e1 | (clear * - e1 hpos hph hp f1 f3 f4 b0 e8 e10 e2; omega) | (clear * - e1 hpos hph hp f1 f3 f4 b0 e8 e10 e2; grind) | simp
  · first | exact e2 | (clear * - e2 hpos hph hp f1 f3 f4 b0 e8 e10 e2; omega) | (clear * - e2 hpos hph hp f1 f3 f4 b0 e8 e10 e2; grind) | simp
  · first | exact e3 | (clear * - e3 hpos hph hp f1 f3 f4 b0 e8 e10 e2; omega) | (clear * - e3 hpos hph hp f1 f3 f4 b0 e8 e10 e2; grind) | simp
  · first | exact e3a | (clear * - e3a hpos hph hp f1 f3 f4 b0 e8 e10 e2; omega) | (clear * - e3a hpos hph hp f1 f3 f4 b0 e8 e10 e2; grind) | simp
  · first | exact e3b | (clear * - e3b hpos hph hp f1 f3 f4 b0 e8 e10 e2; omega) | (clear * - e3b hpos hph hp f1 f3 f4 b0 e8 e10 e2; grind) | simp
  · first | exact e4 | (clear * - e4 hpos hph hp f1 f3 f4 b0 e8 e10 e2; omega) | (clear * - e4 hpos hph hp f1 f3 f4 b0 e8 e10 e2; grind) | simp
  · first | exact e4a | (clear * - e4a hpos hph hp f1 f3 f4 b0 e8 e10 e2; omega) | (clear * - e4a hpos hph hp f1 f3 f4 b0 e8 e10 e2; grind) | simp
  · first | exact e4b | (clear * - e4b hpos hph hp f1 f3 f4 b0 e8 e10 e2; omega) | (clear * - e4b hpos hph hp f1 f3 f4 b0 e8 e10 e2; grind) | simp
  · first | exact e6 | (clear * - e6 hpos hph hp f1 f3 f4 b0 e8 e10 e2; omega) | (clear * - e6 hpos hph hp f1 f3 f4 b0 e8 e10 e2; grind) | simp
  · first | exact e7 | (clear * - e7 hpos hph hp f1 f3 f4 b0 e8 e10 e2; omega) | (clear * - e7 hpos hph hp f1 f3 f4 b0 e8 e10 e2; grind) | simp
  · first | exact e7a | (clear * - e7a hpos hph hp f1 f3 f4 b0 e8 e10 e2; omega) | (clear * - e7a hpos hph hp f1 f3 f4 b0 e8 e10 e2; grind) | simp
  · first | exact e8 | (clear * - e8 hpos hph hp f1 f3 f4 b0 e8 e10 e2; omega) | (clear * - e8 hpos hph hp f1 f3 f4 b0 e8 e10 e2; grind) | simp
  · first | exact e9 | (clear * - e9 hpos hph hp f1 f3 f4 b0 e8 e10 e2; omega) | (clear * - e9 hpos hph hp f1 f3 f4 b0 e8 e10 e2; grind) | simp
  · first | exact e10 | (clear * - e10 hpos hph hp f1 f3 f4 b0 e8 e10 e2; omega) | (clear * - e10 hpos hph hp f1 f3 f4 b0 e8 e10 e2; grind) | simp
  · first | exact e11 | (clear * - e11 hpos hph hp f1 f3 f4 b0 e8 e10 e2; omega) | (clear * - e11 hpos hph hp f1 f3 f4 b0 e8 e10 e2; grind) | simp
  · first | exact e13 | (clear * - e13 hpos hph hp f1 f3 f4 b0 e8 e10 e2; omega) | (clear * - e13 hpos hph hp f1 f3 f4 b0 e8 e10 e2; grind) | simp
  · first | exact e14 | (clear * - e14 hpos hph hp f1 f3 f4 b0 e8 e10 e2; omega) | (clear * - e14 hpos hph hp f1 f3 f4 b0 e8 e10 e2; grind) | simp
  · first | exact e15 | (clear * - e15 hpos hph hp f1 f3 f4 b0 e8 e10 e2; omega) | (clear * - e15 hpos hph hp f1 f3 f4 b0 e8 e10 e2; grind) | simp
  · first | exact d1 | (clear * - d1 hpos hph hp f1 f3 f4 b0 e8 e10 e2; omega) | (clear * - d1 hpos hph hp f1 f3 f4 b0 e8 e10 e2; grind) | simp

theorem OK.tryCF {v : View} (h : OK v) (hpos : 1 ≤ v.tryC) (hph : v.ph = 4) :
    OK { v with tryC := v.tryC - 1, trX := v.trX + 1 } := by
  obtain ⟨b0, a0, a1, a2, a3, e1, e2, e3, e3a, e3b, e4, e4a, e4b, e6, e7, e7a, e8, e9, e10, e11, e13, e14, e15, d1⟩ := h
  have hp : 3 ≤ v.ph := by clear * - a2 hpos; omega
  have f1 := e1 hp
  have f3 := e3 hp
  have f4 : v.ph ≠ 6 := by clear * - e4b e3b f1 e2 hpos; omega
  constructor <;> simp only
  · first | exact b0 | (clear * - b0 hpos hph hp f1 f3 f4 b0 e8 e10 e2; omega) | (clear * - b0 hpos hph hp f1 f3 f4 b0 e8 e10 e2; grind) | simp
  · first | exact a0 | (clear * - a0 hpos hph hp f1 f3 f4 b0 e8 e10 e2; omega) | (clear * - a0 hpos hph hp f1 f3 f4 b0 e8 e10 e2; grind) | simp
  · first | exact a1 | (clear * - a1 hpos hph hp f1 f3 f4 b0 e8 e10 e2; omega) | (clear * - a1 hpos hph hp f1 f3 f4 b0 e8 e10 e2; grind) | simp
  · first | exact a2 | (clear * - a2 hpos hph hp f1 f3 f4 b0 e8 e10 e2; omega) | (clear * - a2 hpos hph hp f1 f3 f4 b0 e8 e10 e2; grind) | simp
  · first | exact a3 | (clear * - a3 hpos hph hp f1 f3 f4 b0 e8 e10 e2; omega) | (clear * - a3 hpos hph hp f1 f3 f4 b0 e8 e10 e2; grind) | simp
  · first | exact e1 | (clear * - e1 hpos hph hp f1 f3 f4 b0 e8 e10 e2; omega) | (clear * - e1 hpos hph hp f1 f3 f4 b0 e8 e10 e2; grind) | simp
  · first | exact e2 | (clear * - e2 hpos hph hp f1 f3 f4 b0 e8 e10 e2; omega) | (clear * - e2 hpos hph hp f1 f3 f4 b0 e8 e10 e2; grind) | simp
  · first | exact e3 | (clear * - e3 hpos hph hp f1 f3 f4 b0 e8 e10 e2; omega) | (clear * - e3 hpos hph hp f1 f3 f4 b0 e8 e10 e2; grind) | simp
  · first | exact e3a | (clear * - e3a hpos hph hp f1 f3 f4 b0 e8 e10 e2; omega) | (clear * - e3a hpos hph hp f1 f3 f4 b0 e8 e10 e2; grind) | simp
  · first | exact e3b | (clear * - e3b hpos hph hp f1 f3 f4 b0 e8 e10 e2; omega) | (clear * - e3b hpos hph hp f1 f3 f4 b0 e8 e10 e2; grind) | simp
  · first | exact e4 | (clear * - e4 hpos hph hp f1 f3 f4 b0 e8 e10 e2; omega) | (clear * - e4 hpos hph hp f1 f3 f4 b0 e8 e10 e2; grind) | simp
  · first | exact e4a | (clear * - e4a hpos hph hp f1 f3 f4 b0 e8 e10 e2; omega) | (clear * - e4a hpos hph hp f1 f3 f4 b0 e8 e10 e2; grind) | simp
  · first | exact e4b | (clear * - e4b hpos hph hp f1 f3 f4 b0 e8 e10 e2; omega) | (clear * - e4b hpos hph hp f1 f3 f4 b0 e8 e10 e2; grind) | simp
  · first | exact e6 | (clear * - e6 hpos hph hp f1 f3 f4 b0 e8 e10 e2; omega) | (clear * - e6 hpos hph hp f1 f3 f4 b0 e8 e10 e2; grind) | simp
  · first | exact e7 | (clear * - e7 hpos hph hp f1 f3 f4 b0 e8 e10 e2; omega) | (clear * - e7 hpos hph hp f1 f3 f4 b0 e8 e10 e2; grind) | simp
  · first | exact e7a | (clear * - e7a hpos hph hp f1 f3 f4 b0 e8 e10 e2; omega) | (clear * - e7a hpos hph hp f1 f3 f4 b0 e8 e10 e2; grind) | simp
  · first | exact e8 | (clear * - e8 hpos hph hp f1 f3 f4 b0 e8 e10 e2; omega) | (clear * - e8 hpos hph hp f1 f3 f4 b0 e8 e10 e2; grind) | simp
  · first | exact e9 | (clear * - e9 hpos hph hp f1 f3 f4 b0 e8 e10 e2; omega) | (clear * - e9 hpos hph hp f1 f3 f4 b0 e8 e10 e2; grind) | simp
  · first | exact e10 | (clear * - e10 hpos hph hp f1 f3 f4 b0 e8 e10 e2; omega) | (clear * - e10 hpos hph hp f1 f3 f4 b0 e8 e10 e2; grind) | simp
  · first | exact e11 | (clear * - e11 hpos hph hp f1 f3 f4 b0 e8 e10 e2; omega) | (clear * - e11 hpos hph hp f1 f3 f4 b0 e8 e10 e2; grind) | simp
  · first | exact e13 | (clear * - e13 hpos hph hp f1 f3 f4 b0 e8 e10 e2; omega) | (clear * - e13 hpos hph hp f1 f3 f4 b0 e8 e10 e2; grind) | simp
  · first | exact e14 | (clear * - e14 hpos hph hp f1 f3 f4 b0 e8 e10 e2; omega) | (clear * - e14 hpos hph hp f1 f3 f4 b0 e8 e10 e2; grind) | simp
  · first | exact e15 | (clear * - e15 hpos hph hp f1 f3 f4 b0 e8 e10 e2; omega) | (clear * - e15 hpos hph hp f1 f3 f4 b0 e8 e10 e2; grind) | simp
  · first | exact d1 | (clear * - d1 hpos hph hp f1 f3 f4 b0 e8 e10 e2; omega) | (clear * - d1 hpos hph hp f1 f3 f4 b0 e8 e10 e2; grind) | simp

theorem OK.unReq {v : View} (h : OK v) (hpos : 1 ≤ v.un) (hrq : v.reqd = 1) :
    OK { v with un := v.un - 1 } := by
  obtain ⟨b0, a0, a1, a2, a3, e1, e2, e3, e3a, e3b, e4, e4a, e4b, e6, e7, e7a, e8, e9, e10, e11, e13, e14, e15, d1⟩ := h
  constructor <;> simp only
  · first | exact b0 | (clear * - b0 hpos hrq b0; omega) | (clear * - b0 hpos hrq b0; grind) | simp
  · first | exact a0 | (clear * - a0 hpos hrq b0; omega) | (clear * - a0 hpos hrq b0; grind) | simp
  · first | exact a1 | (clear * - a1 hpos hrq b0; omega) | (clear * - a1 hpos hrq b0; grind) | simp
  · first | exact a2 | (clear * - a2 hpos hrq b0; omega) | (clear * - a2 hpos hrq b0; grind) | simp
  · first | exact a3 | (clear * - a3 hpos hrq b0; omega) | (clear * - a3 hpos hrq b0; grind) | simp
  · first | exact e1 | (clear * - e1 hpos hrq b0; omega) | (clear * - e1 hpos hrq b0; grind) | simp
  · first | exact e2 | (clear * - e2 hpos hrq b0; omega) | (clear * - e2 hpos hrq b0; grind) | simp
  · first | exact e3 | (clear * - e3 hpos hrq b0; omega) | (clear * - e3 hpos hrq b0; grind) | simp
  · first | exact e3a | (clear * - e3a hpos hrq b0; omega) | (clear * - e3a hpos hrq b0; grind) | simp
  · first | exact e3b | (clear * - e3b hpos hrq b0; omega) | (clear * - e3b hpos hrq b0; grind) | simp
  · first | exact e4 | (clear * - e4 hpos hrq b0; omega) | (clear * - e4 hpos hrq b0; grind) | simp
  · first | exact e4a | (clear * - e4a hpos hrq b0; omega) | (clear * - e4a hpos hrq b0; grind) | simp
  · first | exact e4b | (clear * - e4b hpos hrq b0; omega) | (clear * - e4b hpos hrq b0; grind) | simp
  · first | exact e6 | (clear * - e6 hpos hrq b0; omega) | (clear * - e6 hpos hrq b0; grind) | simp
  · first | exact e7 | (clear * - e7 hpos hrq b0; omega) | (clear * - e7 hpos hrq b0; grind) | simp
  · first | exact e7a | (clear * - e7a hpos hrq b0; omega) | (clear * - e7a hpos hrq b0; grind) | simp
  · first | exact e8 | (clear * - e8 hpos hrq b0; omega) | (clear * - e8 hpos hrq b0; grind) | simp
  · first | exact e9 | (clear * - e9 hpos hrq b0; omega) | (clear * - e9 hpos hrq b0; grind) | simp
  · first | exact e10 | (clear * - e10 hpos hrq b0; omega) | (clear * - e10 hpos hrq b0; grind) | simp
  · first | exact e11 | (clear * - e11 hpos hrq b0; omega) | (clear * - e11 hpos hrq b0; grind) | simp
  · first | exact e13 | (clear * - e13 hpos hrq b0; omega) | (clear * - e13 hpos hrq b0; grind) | simp
  · first | exact e14 | (clear * - e14 hpos hrq b0; omega) | (clear * - e14 hpos hrq b0; grind) | simp
  · first | exact e15 | (clear * - e15 hpos hrq b0; omega) | (clear * - e15 hpos hrq b0; grind) | simp
  · first | exact d1 | (clear * - d1 hpos hrq b0; omega) | (clear * - d1 hpos hrq b0; grind) | simp

theorem OK.unOk {v : View} (h : OK v) (hpos : 1 ≤ v.un) (hrq : v.reqd = 0) (hin : 1 ≤ v.inC) :
    OK { v with un := v.un - 1, inC := v.inC - 1, res := v.res + 1 } := by
  obtain ⟨b0, a0, a1, a2, a3, e1, e2, e3, e3a, e3b, e4, e4a, e4b, e6, e7, e7a, e8, e9, e10, e11, e13, e14, e15, d1⟩ := h
  have hp : 3 ≤ v.ph := by clear * - a2 hpos; omega
  have f1 := e1 hp
  have f3 := e3 hp
  have f4 : v.ph ≠ 6 := by clear * - e3b hin; omega
  constructor <;> simp only
  · first | exact b0 | (clear * - b0 hpos hrq hin hp f1 f3 f4 b0 e4b e3a e7; omega) | (clear * - b0 hpos hrq hin hp f1 f3 f4 b0 e4b e3a e7; grind) | simp
  · first | exact a0 | (clear * - a0 hpos hrq hin hp f1 f3 f4 b0 e4b e3a e7; omega) | (clear * - a0 hpos hrq hin hp f1 f3 f4 b0 e4b e3a e7; grind) | simp
  · first | exact a1 | (clear * - a1 hpos hrq hin hp f1 f3 f4 b0 e4b e3a e7; omega) | (clear * - a1 hpos hrq hin hp f1 f3 f4 b0 e4b e3a e7; grind) | simp
  · first | exact a2 | (clear * - a2 hpos hrq hin hp f1 f3 f4 b0 e4b e3a e7; omega) | (clear * - a2 hpos hrq hin hp f1 f3 f4 b0 e4b e3a e7; grind) | simp
  · first | exact a3 | (clear * - a3 hpos hrq hin hp f1 f3 f4 b0 e4b e3a e7; omega) | (clear * - a3 hpos hrq hin hp f1 f3 f4 b0 e4b e3a e7; grind) | simp
  · first | exact e1 | (clear * - e1 hpos hrq hin hp f1 f3 f4 b0 e4b e3a e7; omega) | (clear * - e1 hpos hrq hin hp f1 f3 f4 b0 e4b e3a e7; grind) | simp
  · first | exact e2 | (clear * - e2 hpos hrq hin hp f1 f3 f4 b0 e4b e3a e7; omega) | (clear * - e2 hpos hrq hin hp f1 f3 f4 b0 e4b e3a e7; grind) | simp
  · first | exact e3 | (clear * - e3 hpos hrq hin hp f1 f3 f4 b0 e4b e3a e7; omega) | (clear * - e3 hpos hrq hin hp f1 f3 f4 b0 e4b e3a e7; grind) | simp
  · first | exact e3a | (clear * - e3a hpos hrq hin hp f1 f3 f4 b0 e4b e3a e7; omega) | (clear * - e3a hpos hrq hin hp f1 f3 f4 b0 e4b e3a e7; grind) | simp
  · first | exact e3b | (clear * - e3b hpos hrq hin hp f1 f3 f4 b0 e4b e3a e7; omega) | (clear * - e3b hpos hrq hin hp f1 f3 f4 b0 e4b e3a e7; grind) | simp
  · first | exact e4 | (clear * - e4 hpos hrq hin hp f1 f3 f4 b0 e4b e3a e7; omega) | (clear * - e4 hpos hrq hin hp f1 f3 f4 b0 e4b e3a e7; grind) | simp
  · first | exact e4a | (clear * - e4a hpos hrq hin hp f1 f3 f4 b0 e4b e3a e7; omega) | (clear * - e4a hpos hrq hin hp f1 f3 f4 b0 e4b e3a e7; grind) | simp
  · first | exact e4b | (clear * - e4b hpos hrq hin hp f1 f3 f4 b0 e4b e3a e7; omega) | (clear * - e4b hpos hrq hin hp f1 f3 f4 b0 e4b e3a e7; grind) | simp
  · first | exact e6 | (clear * - e6 hpos hrq hin hp f1 f3 f4 b0 e4b e3a e7; omega) | (clear * - e6 hpos hrq hin hp f1 f3 f4 b0 e4b e3a e7; grind) | simp
  · first | exact e7 | (clear * - e7 hpos hrq hin hp f1 f3 f4 b0 e4b e3a e7; omega) | (clear * - e7 hpos hrq hin hp f1 f3 f4 b0 e4b e3a e7; grind) | simp
  · first | exact e7a | (clear * - e7a hpos hrq hin hp f1 f3 f4 b0 e4b e3a e7; omega) | (clear * - e7a hpos hrq hin hp f1 f3 f4 b0 e4b e3a e7; grind) | simp
  · first | exact e8 | (clear * - e8 hpos hrq hin hp f1 f3 f4 b0 e4b e3a e7; omega) | (clear * - e8 hpos hrq hin hp f1 f3 f4 b0 e4b e3a e7; grind) | simp
  · first | exact e9 | (clear * - e9 hpos hrq hin hp f1 f3 f4 b0 e4b e3a e7; omega) | (clear * - e9 hpos hrq hin hp f1 f3 f4 b0 e4b e3a e7; grind) | simp
  · first | exact e10 | (clear * - e10 hpos hrq hin hp f1 f3 f4 b0 e4b e3a e7; omega) | (clear * - e10 hpos hrq hin hp f1 f3 f4 b0 e4b e3a e7; grind) | simp
  · first | exact e11 | (clear * - e11 hpos hrq hin hp f1 f3 f4 b0 e4b e3a e7; omega) | (clear * - e11 hpos hrq hin hp f1 f3 f4 b0 e4b e3a e7; grind) | simp
  · first | exact e13 | (clear * - e13 hpos hrq hin hp f1 f3 f4 b0 e4b e3a e7; omega) | (clear * - e13 hpos hrq hin hp f1 f3 f4 b0 e4b e3a e7; grind) | simp
  · first | exact e14 | (clear * - e14 hpos hrq hin hp f1 f3 f4 b0 e4b e3a e7; omega) | (clear * - e14 hpos hrq hin hp f1 f3 f4 b0 e4b e3a e7; grind) | simp
  · first | exact e15 | (clear * - e15 hpos hrq hin hp f1 f3 f4 b0 e4b e3a e7; omega) | (clear * - e15 hpos hrq hin hp f1 f3 f4 b0 e4b e3a e7; grind) | simp
  · first | exact d1 | (clear * - d1 hpos hrq hin hp f1 f3 f4 b0 e4b e3a e7; omega) | (clear * - d1 hpos hrq hin hp f1 f3 f4 b0 e4b e3a e7; grind) | simp

theorem OK.resume {v : View} (h : OK v) (hpos : 1 ≤ v.res) :
    OK { v with res := v.res - 1, ph := 6, done := v.done + 1 } := by
  obtain ⟨b0, a0, a1, a2, a3, e1, e2, e3, e3a, e3b, e4, e4a, e4b, e6, e7, e7a, e8, e9, e10, e11, e13, e14, e15, d1⟩ := h
  have hp : 3 ≤ v.ph := by clear * - a2 hpos; omega
  have f1 := e1 hp
  have f3 := e3 hp
  have f4 : v.ph ≠ 6 := by clear * - e4a hpos; omega
  constructor <;> simp only
  · first | exact b0 | (clear * - b0 hpos hp f1 f3 f4 b0 e4b e3a e2 e7 e4; omega) | (clear * - b0 hpos hp f1 f3 f4 b0 e4b e3a e2 e7 e4; grind) | simp
  · first | exact a0 | (clear * - a0 hpos hp f1 f3 f4 b0 e4b e3a e2 e7 e4; omega) | (clear * - a0 hpos hp f1 f3 f4 b0 e4b e3a e2 e7 e4; grind) | simp
  · first | exact a1 | (clear * - a1 hpos hp f1 f3 f4 b0 e4b e3a e2 e7 e4; omega) | (clear * - a1 hpos hp f1 f3 f4 b0 e4b e3a e2 e7 e4; grind) | simp
  · first | exact a2 | (clear * - a2 hpos hp f1 f3 f4 b0 e4b e3a e2 e7 e4; omega) | (clear * - a2 hpos hp f1 f3 f4 b0 e4b e3a e2 e7 e4; grind) | simp
  · first | exact a3 | (clear * - a3 hpos hp f1 f3 f4 b0 e4b e3a e2 e7 e4; omega) | (clear * - a3 hpos hp f1 f3 f4 b0 e4b e3a e2 e7 e4; grind) | simp
  · first | exact e1 | (clear * - e1 hpos hp f1 f3 f4 b0 e4b e3a e2 e7 e4; omega) | (clear * - e1 hpos hp f1 f3 f4 b0 e4b e3a e2 e7 e4; grind) | simp
  · first | exact e2 | (clear * - e2 hpos hp f1 f3 f4 b0 e4b e3a e2 e7 e4; omega) | (clear * - e2 hpos hp f1 f3 f4 b0 e4b e3a e2 e7 e4; grind) | simp
  · first | exact e3 | (clear * - e3 hpos hp f1 f3 f4 b0 e4b e3a e2 e7 e4; omega) | (clear * - e3 hpos hp f1 f3 f4 b0 e4b e3a e2 e7 e4; grind) | simp
  · first | exact e3a | (clear * - e3a hpos hp f1 f3 f4 b0 e4b e3a e2 e7 e4; omega) | (clear * - e3a hpos hp f1 f3 f4 b0 e4b e3a e2 e7 e4; grind) | simp
  · first | exact e3b | (clear * - e3b hpos hp f1 f3 f4 b0 e4b e3a e2 e7 e4; omega) | (clear * - e3b hpos hp f1 f3 f4 b0 e4b e3a e2 e7 e4; grind) | simp
  · first | exact e4 | (clear * - e4 hpos hp f1 f3 f4 b0 e4b e3a e2 e7 e4; omega) | (clear * - e4 hpos hp f1 f3 f4 b0 e4b e3a e2 e7 e4; grind) | simp
  · first | exact e4a | (clear * - e4a hpos hp f1 f3 f4 b0 e4b e3a e2 e7 e4; omega) | (clear * - e4a hpos hp f1 f3 f4 b0 e4b e3a e2 e7 e4; grind) | simp
  · first | exact e4b | (clear * - e4b hpos hp f1 f3 f4 b0 e4b e3a e2 e7 e4; omega) | (clear * - e4b hpos hp f1 f3 f4 b0 e4b e3a e2 e7 e4; grind) | simp
  · first | exact e6 | (clear * - e6 hpos hp f1 f3 f4 b0 e4b e3a e2 e7 e4; omega) | (clear * - e6 hpos hp f1 f3 f4 b0 e4b e3a e2 e7 e4; grind) | simp
  · first | exact e7 | (clear * - e7 hpos hp f1 f3 f4 b0 e4b e3a e2 e7 e4; omega) | (clear * - e7 hpos hp f1 f3 f4 b0 e4b e3a e2 e7 e4; grind) | simp
  · first | exact e7a | (clear * - e7a hpos hp f1 f3 f4 b0 e4b e3a e2 e7 e4; omega) | (clear * - e7a hpos hp f1 f3 f4 b0 e4b e3a e2 e7 e4; grind) | simp
  · first | exact e8 | (clear * - e8 hpos hp f1 f3 f4 b0 e4b e3a e2 e7 e4; omega) | (clear * - e8 hpos hp f1 f3 f4 b0 e4b e3a e2 e7 e4; grind) | simp
  · first | exact e9 | (clear * - e9 hpos hp f1 f3 f4 b0 e4b e3a e2 e7 e4; omega) | (clear * - e9 hpos hp f1 f3 f4 b0 e4b e3a e2 e7 e4; grind) | simp
  · first | exact e10 | (clear * - e10 hpos hp f1 f3 f4 b0 e4b e3a e2 e7 e4; omega) | (clear * - e10 hpos hp f1 f3 f4 b0 e4b e3a e2 e7 e4; grind) | simp
  · first | exact e11 | (clear * - e11 hpos hp f1 f3 f4 b0 e4b e3a e2 e7 e4; omega) | (clear * - e11 hpos hp f1 f3 f4 b0 e4b e3a e2 e7 e4; grind) | simp
  · first | exact e13 | (clear * - e13 hpos hp f1 f3 f4 b0 e4b e3a e2 e7 e4; omega) | (clear * - e13 hpos hp f1 f3 f4 b0 e4b e3a e2 e7 e4; grind) | simp
  · first | exact e14 | (clear * - e14 hpos hp f1 f3 f4 b0 e4b e3a e2 e7 e4; omega) | (clear * - e14 hpos hp f1 f3 f4 b0 e4b e3a e2 e7 e4; grind) | simp
  · first | exact e15 | (clear * - e15 hpos hp f1 f3 f4 b0 e4b e3a e2 e7 e4; omega) | (clear * - e15 hpos hp f1 f3 f4 b0 e4b e3a e2 e7 e4; grind) | simp
  · first | exact d1 | (clear * - d1 hpos hp f1 f3 f4 b0 e4b e3a e2 e7 e4; omega) | (clear * - d1 hpos hp f1 f3 f4 b0 e4b e3a e2 e7 e4; grind) | simp

theorem OK.complete {v : View} (h : OK v) (hpos : 1 ≤ v.co) :
    OK { v with co := v.co - 1, trC := v.trC + 1 } := by
  obtain ⟨b0, a0, a1, a2, a3, e1, e2, e3, e3a, e3b, e4, e4a, e4b, e6, e7, e7a, e8, e9, e10, e11, e13, e14, e15, d1⟩ := h
  have hp : 3 ≤ v.ph := by clear * - a2 hpos; omega
  constructor <;> simp only
  · first | exact b0 | (clear * - b0 hpos hp; omega) | (clear * - b0 hpos hp; grind) | simp
  · first | exact a0 | (clear * - a0 hpos hp; omega) | (clear * - a0 hpos hp; grind) | simp
  · first | exact a1 | (clear * - a1 hpos hp; omega) | (clear * - a1 hpos hp; grind) | simp
  · first | exact a2 | (clear * - a2 hpos hp; omega) | (clear * - a2 hpos hp; grind) | simp
  · first | exact a3 | (clear * - a3 hpos hp; omega) | (clear * - a3 hpos hp; grind) | simp
  · first | exact e1 | (clear * - e1 hpos hp; omega) | (clear * - e1 hpos hp; grind) | simp
  · first | exact e2 | (clear * - e2 hpos hp; omega) | (clear * - e2 hpos hp; grind) | simp
  · first | exact e3 | (clear * - e3 hpos hp; omega) | (clear * - e3 hpos hp; grind) | simp
  · first | exact e3a | (clear * - e3a hpos hp; omega) | (clear * - e3a hpos hp; grind) | simp
  · first | exact e3b | (clear * - e3b hpos hp; omega) | (clear * - e3b hpos hp; grind) | simp
  · first | exact e4 | (clear * - e4 hpos hp; omega) | (clear * - e4 hpos hp; grind) | simp
  · first | exact e4a | (clear * - e4a hpos hp; omega) | (clear * - e4a hpos hp; grind) | simp
  · first | exact e4b | (clear * - e4b hpos hp; omega) | (clear * - e4b hpos hp; grind) | simp
  · first | exact e6 | (clear * - e6 hpos hp; omega) | (clear * - e6 hpos hp; grind) | simp
  · first | exact e7 | (clear * - e7 hpos hp; omega) | (clear * - e7 hpos hp; grind) | simp
  · first | exact e7a | (clear * - e7a hpos hp; omega) | (clear * - e7a hpos hp; grind) | simp
  · first | exact e8 | (clear * - e8 hpos hp; omega) | (clear * - e8 hpos hp; grind) | simp
  · first | exact e9 | (clear * - e9 hpos hp; omega) | (clear * - e9 hpos hp; grind) | simp
  · first | exact e10 | (clear * - e10 hpos hp; omega) | (clear * - e10 hpos hp; grind) | simp
  · first | exact e11 | (clear * - e11 hpos hp; omega) | (clear * - e11 hpos hp; grind) | simp
  · first | exact e13 | (clear * - e13 hpos hp; omega) | (clear * - e13 hpos hp; grind) | simp
  · first | exact e14 | (clear * - e14 hpos hp; omega) | (clear * - e14 hpos hp; grind) | simp
  · first | exact e15 | (clear * - e15 hpos hp; omega) | (clear * - e15 hpos hp; grind) | simp
  · first | exact d1 | (clear * - d1 hpos hp; omega) | (clear * - d1 hpos hp; grind) | simp

theorem OK.cancel {v : View} (h : OK v) (hev : v.hasEv = 1) :
    OK { v with reqd := 1, tryC := v.tryC + v.inC, inC := 0 } := by
  obtain ⟨b0, a0, a1, a2, a3, e1, e2, e3, e3a, e3b, e4, e4a, e4b, e6, e7, e7a, e8, e9, e10, e11, e13, e14, e15, d1⟩ := h
  constructor <;> simp only
  · first | exact b0 | (clear * - b0 hev b0; omega) | (clear * - b0 hev b0; grind) | simp
  · first | exact a0 | (clear * - a0 hev b0; omega) | (clear * - a0 hev b0; grind) | simp
  · first | exact a1 | (clear * - a1 hev b0; omega) | (clear * - a1 hev b0; grind) | simp
  · first | exact a2 | (clear * - a2 hev b0; omega) | (clear * - a2 hev b0; grind) | simp
  · first | exact a3 | (clear * - a3 hev b0; omega) | (clear * - a3 hev b0; grind) | simp
  · first | exact e1 | (clear * - e1 hev b0; omega) | (clear * - e1 hev b0; grind) | simp
  · first | exact e2 | (clear * - e2 hev b0; omega) | (clear * - e2 hev b0; grind) | simp
  · first | exact e3 | (clear * - e3 hev b0; omega) | (clear * - e3 hev b0; grind) | simp
  · first | exact e3a | (clear * - e3a hev b0; omega) | (clear * - e3a hev b0; grind) | simp
  · first | exact e3b | (clear * - e3b hev b0; omega) | (clear * - e3b hev b0; grind) | simp
  · first | exact e4 | (clear * - e4 hev b0; omega) | (clear * - e4 hev b0; grind) | simp
  · first | exact e4a | (clear * - e4a hev b0; omega) | (clear * - e4a hev b0; grind) | simp
  · first | exact e4b | (clear * - e4b hev b0; omega) | (clear * - e4b hev b0; grind) | simp
  · first | exact e6 | (clear * - e6 hev b0; omega) | (clear * - e6 hev b0; grind) | simp
  · first | exact e7 | (clear * - e7 hev b0; omega) | (clear * - e7 hev b0; grind) | simp
  · first | exact e7a | (clear * - e7a hev b0; omega) | (clear * - e7a hev b0; grind) | simp
  · first | exact e8 | (clear * - e8 hev b0; omega) | (clear * - e8 hev b0; grind) | simp
  · first | exact e9 | (clear * - e9 hev b0; omega) | (clear * - e9 hev b0; grind) | simp
  · first | exact e10 | (clear * - e10 hev b0; omega) | (clear * - e10 hev b0; grind) | simp
  · first | exact e11 | (clear * - e11 hev b0; omega) | (clear * - e11 hev b0; grind) | simp
  · first | exact e13 | (clear * - e13 hev b0; omega) | (clear * - e13 hev b0; grind) | simp
  · first | exact e14 | (clear * - e14 hev b0; omega) | (clear * - e14 hev b0; grind) | simp
  · first | exact e15 | (clear * - e15 hev b0; omega) | (clear * - e15 hev b0; grind) | simp
  · first | exact d1 | (clear * - d1 hev b0; omega) | (clear * - d1 hev b0; grind) | simp

theorem OK.take {v : View} (h : OK v) (hph : v.ph = 3) :
    OK { v with ph := 4, co := v.co + 1 } := by
  obtain ⟨b0, a0, a1, a2, a3, e1, e2, e3, e3a, e3b, e4, e4a, e4b, e6, e7, e7a, e8, e9, e10, e11, e13, e14, e15, d1⟩ := h
  constructor <;> simp only
  · first | exact b0 | (clear * - b0 hph b0 e2 e4b; omega) | (clear * - b0 hph b0 e2 e4b; grind) | simp
  · first | exact a0 | (clear * - a0 hph b0 e2 e4b; omega) | (clear * - a0 hph b0 e2 e4b; grind) | simp
  · first | exact a1 | (clear * - a1 hph b0 e2 e4b; omega) | (clear * - a1 hph b0 e2 e4b; grind) | simp
  · first | exact a2 | (clear * - a2 hph b0 e2 e4b; omega) | (clear * - a2 hph b0 e2 e4b; grind) | simp
  · first | exact a3 | (clear * - a3 hph b0 e2 e4b; omega) | (clear * - a3 hph b0 e2 e4b; grind) | simp
  · first | exact e1 | (clear * - e1 hph b0 e2 e4b; omega) | (clear * - e1 hph b0 e2 e4b; grind) | simp
  · first | exact e2 | (clear * - e2 hph b0 e2 e4b; omega) | (clear * - e2 hph b0 e2 e4b; grind) | simp
  · first | exact e3 | (clear * - e3 hph b0 e2 e4b; omega) | (clear * - e3 hph b0 e2 e4b; grind) | simp
  · first | exact e3a | (clear * - e3a hph b0 e2 e4b; omega) | (clear * - e3a hph b0 e2 e4b; grind) | simp
  · first | exact e3b | (clear * - e3b hph b0 e2 e4b; omega) | (clear * - e3b hph b0 e2 e4b; grind) | simp
  · first | exact e4 | (clear * - e4 hph b0 e2 e4b; omega) | (clear * - e4 hph b0 e2 e4b; grind) | simp
  · first | exact e4a | (clear * - e4a hph b0 e2 e4b; omega) | (clear * - e4a hph b0 e2 e4b; grind) | simp
  · first | exact e4b | (clear * - e4b hph b0 e2 e4b; omega) | (clear * - e4b hph b0 e2 e4b; grind) | simp
  · first | exact e6 | (clear * - e6 hph b0 e2 e4b; omega) | (clear * - e6 hph b0 e2 e4b; grind) | simp
  · first | exact e7 | (clear * - e7 hph b0 e2 e4b; omega) | (clear * - e7 hph b0 e2 e4b; grind) | simp
  · first | exact e7a | (clear * - e7a hph b0 e2 e4b; omega) | (clear * - e7a hph b0 e2 e4b; grind) | simp
  · first | exact e8 | (clear * - e8 hph b0 e2 e4b; omega) | (clear * - e8 hph b0 e2 e4b; grind) | simp
  · first | exact e9 | (clear * - e9 hph b0 e2 e4b; omega) | (clear * - e9 hph b0 e2 e4b; grind) | simp
  · first | exact e10 | (clear * - e10 hph b0 e2 e4b; omega) | (clear * - e10 hph b0 e2 e4b; grind) | simp
  · first | exact e11 | (clear * - e11 hph b0 e2 e4b; omega) | (clear * - e11 hph b0 e2 e4b; grind) | simp
  · first | exact e13 | (clear * - e13 hph b0 e2 e4b; omega) | (clear * - e13 hph b0 e2 e4b; grind) | simp
  · first | exact e14 | (clear * - e14 hph b0 e2 e4b; omega) | (clear * - e14 hph b0 e2 e4b; grind) | simp
  · first | exact e15 | (clear * - e15 hph b0 e2 e4b; omega) | (clear * - e15 hph b0 e2 e4b; grind) | simp
  · first | exact d1 | (clear * - d1 hph b0 e2 e4b; omega) | (clear * - d1 hph b0 e2 e4b; grind) | simp

theorem OK.reset {v : View} (h : OK v) (hz : v.sta + v.fas + v.lis + v.reg + v.tryL + v.tryC + v.trL + v.trC + v.trX + v.un + v.res + v.co = 0) (hph : v.ph = 0 ∨ v.ph = 2 ∨ v.ph = 6) :
    OK { v with reqd := 0 } := by
  obtain ⟨b0, a0, a1, a2, a3, e1, e2, e3, e3a, e3b, e4, e4a, e4b, e6, e7, e7a, e8, e9, e10, e11, e13, e14, e15, d1⟩ := h
  constructor <;> simp only
  · first | exact b0 | (clear * - b0 hz hph b0 a2; omega) | (clear * - b0 hz hph b0 a2; grind) | simp
  · first | exact a0 | (clear * - a0 hz hph b0 a2; omega) | (clear * - a0 hz hph b0 a2; grind) | simp
  · first | exact a1 | (clear * - a1 hz hph b0 a2; omega) | (clear * - a1 hz hph b0 a2; grind) | simp
  · first | exact a2 | (clear * - a2 hz hph b0 a2; omega) | (clear * - a2 hz hph b0 a2; grind) | simp
  · first | exact a3 | (clear * - a3 hz hph b0 a2; omega) | (clear * - a3 hz hph b0 a2; grind) | simp
  · first | exact e1 | (clear * - e1 hz hph b0 a2; omega) | (clear * - e1 hz hph b0 a2; grind) | simp
  · first | exact e2 | (clear * - e2 hz hph b0 a2; omega) | (clear * - e2 hz hph b0 a2; grind) | simp
  · first | exact e3 | (clear * - e3 hz hph b0 a2; omega) | (clear * - e3 hz hph b0 a2; grind) | simp
  · first | exact e3a | (clear * - e3a hz hph b0 a2; omega) | (clear * - e3a hz hph b0 a2; grind) | simp
  · first | exact e3b | (clear * - e3b hz hph b0 a2; omega) | (clear * - e3b hz hph b0 a2; grind) | simp
  · first | exact e4 | (clear * - e4 hz hph b0 a2; omega) | (clear * - e4 hz hph b0 a2; grind) | simp
  · first | exact e4a | (clear * - e4a hz hph b0 a2; omega) | (clear * - e4a hz hph b0 a2; grind) | simp
  · first | exact e4b | (clear * - e4b hz hph b0 a2; omega) | (clear * - e4b hz hph b0 a2; grind) | simp
  · first | exact e6 | (clear * - e6 hz hph b0 a2; omega) | (clear * - e6 hz hph b0 a2; grind) | simp
  · first | exact e7 | (clear * - e7 hz hph b0 a2; omega) | (clear * - e7 hz hph b0 a2; grind) | simp
  · first | exact e7a | (clear * - e7a hz hph b0 a2; omega) | (clear * - e7a hz hph b0 a2; grind) | simp
  · first | exact e8 | (clear * - e8 hz hph b0 a2; omega) | (clear * - e8 hz hph b0 a2; grind) | simp
  · first | exact e9 | (clear * - e9 hz hph b0 a2; omega) | (clear * - e9 hz hph b0 a2; grind) | simp
  · first | exact e10 | (clear * - e10 hz hph b0 a2; omega) | (clear * - e10 hz hph b0 a2; grind) | simp
  · first | exact e11 | (clear * - e11 hz hph b0 a2; omega) | (clear * - e11 hz hph b0 a2; grind) | simp
  · first | exact e13 | (clear * - e13 hz hph b0 a2; omega) | (clear * - e13 hz hph b0 a2; grind) | simp
  · first | exact e14 | (clear * - e14 hz hph b0 a2; omega) | (clear * - e14 hz hph b0 a2; grind) | simp
  · first | exact e15 | (clear * - e15 hz hph b0 a2; omega) | (clear * - e15 hz hph b0 a2; grind) | simp
  · first | exact d1 | (clear * - d1 hz hph b0 a2; omega) | (clear * - d1 hz hph b0 a2; grind) | simp


end Verif.Resolver
