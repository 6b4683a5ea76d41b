import Verif.Fe.Correct
/-!
# Whole programs: functions that call each other
-/
namespace Cmmc.Fe
open Cmmc

section
variable {X : Ext}

/-- a program: globals and functions -/
structure Prog where
  globs : List Glob
  fns : String → Option Fn
  /-- declared functions without a body (the runtime library) -/
  decls : Sigs

/-- the signatures calls are checked against -/
def Prog.sigs (p : Prog) : Sigs := fun f =>
  match p.fns f with
  | some fn => some (fn.params.map (fun q => q.2.1), fn.ret)
  | none => p.decls f

/-- source: what a call of `f` does if calls are nested at most `d` deep and every loop takes at most `n` iterations; no claim (`ub`)
    otherwise. `lib` is the runtime library. -/
def Prog.scall (p : Prog) (lib : Calls X) (n : Nat) : Nat → Calls X
  | 0, f, ns, w => match p.fns f with
    | some _ => .ub
    | none => lib f ns w
  | d + 1, f, ns, w => match p.fns f with
    | none => lib f ns w
    | some fn =>
      if ArgsOk fn.params ns then
        match runFn p.sigs (p.scall lib n d) (globEnv p.globs) fn n ns w with
        | .ret (some x) w' tr => match fn.ret with
          | some t => .ok (raw t.w x) w' tr
          | none => .ub
        | .ret none w' tr => if fn.ret = none then .ok 0 w' tr else .ub
        | .halt h tr => .halt tr h
        | .ub => .ub
        | .more _ => .ub
      else .ub

theorem Out.bind_ok {α β : Type} {o : Out X α} {f : α → SSt X → Out X β} {b : β} {S' : SSt X} (h : o.bind f = .ok b S') :
    ∃ a S, o = .ok a S ∧ f a S = .ok b S' := by
  rcases o with ⟨a, S⟩ | _ | ⟨hh, tr⟩
  · exact ⟨a, S, rfl, h⟩
  · cases h
  · cases h

/-- the arguments of a call always fit the parameters, so the test in `scall` excludes nothing -/
theorem args_fit {sigs : Sigs} {call : Calls X} {ρ : SEnv} : ∀ (ps : List (String × IT × Bool)) (as : Args) (S S' : SSt X) (ns : List Nat),
    evalArgs sigs call ρ (ps.map (fun q => q.2.1)) as S = .ok ns S' → ArgsOk ps ns
  | [], .nil, S, S', ns, h => by
    rw [List.map_nil, evalArgs] at h
    cases h
    trivial
  | [], .cons a as, S, S', ns, h => by
    simp [evalArgs] at h
  | q :: ps, .nil, S, S', ns, h => by
    simp [evalArgs] at h
  | (x, t, c) :: ps, .cons a as, S, S', ns, h => by
    rw [List.map_cons, evalArgs] at h
    obtain ⟨q, S1, _, h⟩ := Out.bind_ok h
    obtain ⟨v, S2, _, h⟩ := Out.bind_ok h
    obtain ⟨vs, S3, h3, h⟩ := Out.bind_ok h
    cases h
    refine ⟨?_, args_fit ps as _ _ _ h3⟩
    unfold raw
    have : (0 : Int) < 2 ^ t.w.bits := by positivity
    have h1 := Int.emod_lt_of_pos (conv t v.2) this
    have h0 := Int.emod_nonneg (conv t v.2) (ne_of_gt this)
    zify
    rw [Int.toNat_of_nonneg h0]
    exact_mod_cast h1

/-- the emitted code of the functions; `P` is the pointer width -/
def Prog.code (p : Prog) (P : Wd) (f : String) : Option (SSA.Func Op Cst) :=
  (p.fns f).bind (fun fn => (emitFn p.sigs P p.globs fn).map (finish fn))

/-- a fresh activation -/
def fresh (w : X.World) : Mem X := ⟨fun _ _ => none, fun _ => 0, w⟩

/-- the pattern a caller sees; the caller of a void function sees none -/
def seen : Option V → Option Nat
  | some (.int n) => some n
  | none => some 0
  | _ => none

open Classical in
/-- target: what a call of the code `F` does if the calls it makes do `tc` -/
noncomputable def invoke (tc : Calls X) (F : SSA.Func Op Cst) (ns : List Nat) (w : X.World) : CallRes X :=
  if h : ∃ b, SSA.Ends (irL tc ns) F (fresh w) b then
    match h.choose with
    | .ret v m' tr => match seen v with
      | some r => .ok r m'.w tr
      | none => .ub
    | .halt hh tr => .halt tr hh
    | .ub => .ub
  else .ub

/-- target: calls nested at most `d` deep -/
noncomputable def tcall (code : String → Option (SSA.Func Op Cst)) (lib : Calls X) : Nat → Calls X
  | 0 => fun f ns w => match code f with
    | some _ => .ub
    | none => lib f ns w
  | d + 1 => fun f ns w => match code f with
    | none => lib f ns w
    | some F => invoke (tcall code lib d) F ns w

/-- every function is accepted by the front end, has C's statement syntax -/
def Prog.Ok (p : Prog) (P : Wd) : Prop := ∀ f fn, p.fns f = some fn → fn.body.wf = true ∧ ∃ c, emitFn p.sigs P p.globs fn = some c

theorem ends_det {L : SSA.Lang} {F : L.F} {m : L.M} {b b' : SSA.Beh L} (h : SSA.Ends L F m b) (h' : SSA.Ends L F m b') : b = b' := by
  obtain ⟨n, h⟩ := h
  obtain ⟨n', h'⟩ := h'
  exact SSA.run_det h h'

theorem tcall_ret {code : String → Option (SSA.Func Op Cst)} {lib : Calls X} {d : Nat} {f : String} {ns : List Nat} {w : X.World}
    {F : SSA.Func Op Cst} (hc : code f = some F) {v : Option V} {m' : Mem X} {tr : List X.E} {r : Nat}
    (h : SSA.Ends (irL (tcall code lib d) ns) F (fresh w) (.ret v m' tr)) (hr : seen v = some r) :
    tcall code lib (d + 1) f ns w = .ok r m'.w tr := by
  have hex : ∃ b, SSA.Ends (irL (tcall code lib d) ns) F (fresh w) b := ⟨_, h⟩
  simp only [tcall, hc]
  unfold invoke
  rw [dif_pos hex, ends_det hex.choose_spec h]
  simp only [hr]

theorem tcall_halt {code : String → Option (SSA.Func Op Cst)} {lib : Calls X} {d : Nat} {f : String} {ns : List Nat} {w : X.World}
    {F : SSA.Func Op Cst} (hc : code f = some F) {hh : X.H} {tr : List X.E}
    (h : SSA.Ends (irL (tcall code lib d) ns) F (fresh w) (.halt hh tr)) :
    tcall code lib (d + 1) f ns w = .halt tr hh := by
  have hex : ∃ b, SSA.Ends (irL (tcall code lib d) ns) F (fresh w) b := ⟨_, h⟩
  simp only [tcall, hc]
  unfold invoke
  rw [dif_pos hex, ends_det hex.choose_spec h]

/-- what a call of a function does, it also does after translation -/
theorem C62_program {p : Prog} {P : Wd} (hP : 32 ≤ P.bits) (hok : p.Ok P) (hX : Separate X) {lib : Calls X}
    (hlib : ∀ f ns w n w' es, ConstOk p.globs w → lib f ns w = .ok n w' es → ConstOk p.globs w') (n : Nat) :
    ∀ d f ns w, ConstOk p.globs w → p.scall lib n d f ns w ≠ .ub →
      tcall (p.code P) lib d f ns w = p.scall lib n d f ns w ∧
      ∀ r w' es, p.scall lib n d f ns w = .ok r w' es → ConstOk p.globs w' := by
  intro d
  induction d with
  | zero =>
    intro f ns w hw hs
    rcases hf : p.fns f with _ | fn
    · have hcode : p.code P f = none := by simp [Prog.code, hf]
      simp only [Prog.scall, tcall, hf, hcode]
      exact ⟨trivial, fun r w' es h => hlib f ns w r w' es hw h⟩
    · simp only [Prog.scall, hf] at hs
      exact absurd rfl hs
  | succ d ih =>
    intro f ns w hw hs
    rcases hf : p.fns f with _ | fn
    · have hcode : p.code P f = none := by simp [Prog.code, hf]
      simp only [Prog.scall, tcall, hf, hcode]
      exact ⟨trivial, fun r w' es h => hlib f ns w r w' es hw h⟩
    · obtain ⟨hwf, c, hc⟩ := hok f fn hf
      have hcode : p.code P f = some (finish fn c) := by simp [Prog.code, hf, hc]
      have hsc : p.scall lib n (d + 1) f ns w = p.scall lib n (d + 1) f ns w := rfl
      conv at hsc => rhs; simp only [Prog.scall, hf]
      rw [hsc] at hs ⊢
      by_cases ha : ArgsOk fn.params ns
      · rw [if_pos ha] at hs ⊢
        have hmain := fn_correct hP hc hwf (sc := p.scall lib n d) (tc := tcall (p.code P) lib d) hX
          (fun f ns w hw hu => (ih f ns w hw hu).1) (fun f ns w r w' es hw h => (ih f ns w hw (by rw [h]; simp)).2 r w' es h) ha
          (fresh w) hw n
        have hfw : (fresh w).w = w := rfl
        rw [hfw] at hmain
        generalize runFn p.sigs (p.scall lib n d) (globEnv p.globs) fn n ns w = r at hmain hs
        rcases r with ⟨v, w', tr⟩ | _ | ⟨hh, tr⟩ | tr
        · obtain ⟨hi, m', he, hmw⟩ := hmain
          rcases v with _ | x
          · simp only [] at hs ⊢
            by_cases hr : fn.ret = none
            · rw [if_pos hr] at hs ⊢
              refine ⟨?_, fun r w'' es h => by cases h; exact hi⟩
              rw [← hmw]
              exact tcall_ret hcode he (by simp [result, hr, seen])
            · rw [if_neg hr] at hs; exact absurd rfl hs
          · simp only [] at hs ⊢
            rcases hr : fn.ret with _ | t
            · simp only [hr] at hs; exact absurd rfl hs
            · simp only [] at hs ⊢
              refine ⟨?_, fun r w'' es h => by cases h; exact hi⟩
              rw [← hmw]
              exact tcall_ret hcode he (by simp [result, hr, seen])
        · exact absurd rfl hs
        · refine ⟨tcall_halt hcode hmain, fun r w'' es h => by cases h⟩
        · exact absurd rfl hs
      · rw [if_neg ha] at hs; exact absurd rfl hs

end
end Cmmc.Fe
