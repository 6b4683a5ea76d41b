import Verif.Fe.Opt
import Verif.SSA.Ex
/-!
# C63-C65 on concrete functions
-/
namespace Cmmc.Fe.Ex
open Cmmc Cmmc.Fe

def ords : SSA.Orders := ⟨fun _ l => l, fun _ l => l, fun _ l => l, fun _ _ => .refl _, fun _ _ => .refl _, fun _ _ => .refl _⟩

/-- the verifier accepts `f` as emitted (nothing in it is dead) -/
theorem f_verified : ((emitFn sigs .w64 gs f).bind fun c => (finish f c).verify ords) = some true := by decide +kernel

/-- C65 applied to `f`: optimised code for `f(10, -2)` returns 23 and has the effects of the source -/
theorem f_optimised : ∃ c G m', emitFn sigs .w64 gs f = some c ∧ optimise id (fun _ _ => true) (fun _ => .undef) (finish f c) = some G ∧
    SSA.Ends (irL lib [10, 254]) G (fresh (fun _ => 0)) (.ret (some (.int 23)) m' ([4294967295, 1, 5, 13] : List Nat)) := by
  obtain ⟨c, hc⟩ := Option.isSome_iff_exists.1 accepted
  obtain ⟨G, hG, h⟩ := C65_optimised (call := lib) (tc := lib) (by decide) hc (by decide +kernel) separate (fun _ _ _ _ _ => rfl)
    (fun _ _ _ _ _ _ _ _ => constOk _) (ord := id) (fun l => .refl l) (fun _ _ => true) (fun _ => .undef)
  have h := h [10, 254] (by decide) (fresh (fun _ => 0)) (constOk _)
  rcases hr : runFn sigs lib (globEnv gs) f 6 [10, 254] (fun _ => 0) with ⟨v, w, tr⟩ | _ | ⟨hh, tr⟩ | tr
  · have hs := source_runs
    rw [hr] at hs
    simp only [FOut.summary, Option.some.injEq] at hs
    have h1 : v = some 23 := congrArg Prod.fst hs
    have h3 : tr = ([4294967295, 1, 5, 13] : List Nat) := congrArg (fun p => p.2.2) hs
    subst h1 h3
    obtain ⟨m', he, _⟩ := h.1 _ _ _ ⟨fun tr hc => by simp at hc, 6, hr⟩
    exact ⟨c, G, m', hc, hG, he⟩
  · have hs := source_runs; rw [hr] at hs; cases hs
  · have hs := source_runs; rw [hr] at hs; cases hs
  · have hs := source_runs; rw [hr] at hs; cases hs

/-- `int k(int a, int b) { return 0; return (a + 1) + (a && b); }` -/
def k : Fn where
  params := [("a", i32, false), ("b", i32, false)]
  ret := some i32
  body := .seq (.ret (some (lit 0))) (.ret (some (.bin .add (.bin .add (.id "a") (lit 1)) (.land (.id "a") (.id "b")))))

/-- Why BlockEliminate has to come before the verifier: code behind the first `return` of a block is cut off (EmitIR.cpp:221-249), but blocks
created later may still use it, so the function as emitted is rejected (the check at EmitIR.cpp:253-257 would fail) … -/
theorem k_rejected : ((emitFn sigs .w64 gs k).bind fun c => (finish k c).verify ords) = some false := by decide +kernel

/-- … and after BlockEliminate it is accepted -/
theorem k_eliminated : ((emitFn sigs .w64 gs k).bind fun c => (SSA.blockEliminate (fun _ => .undef) (finish k c)).bind fun G => G.verify ords) = some true := by
  decide +kernel

end Cmmc.Fe.Ex

namespace Cmmc.SSA.Ex
open Cmmc.SSA

/-- a function with two dead blocks, one of them jumping to the end: `if(1 < 2) print(1); return x` -/
def half : Func XOp Int := mk
  [(0, ⟨[], [⟨10, .lt, [.cst 1, .cst 2]⟩], .cbr (.inst 10) 1 3⟩),
   (1, ⟨[], [⟨11, .print, [.cst 1]⟩], .br 3⟩),
   (2, ⟨[⟨12, [(4, .inst 16)]⟩], [⟨13, .add, [.inst 12, .cst 1]⟩], .cbr (.inst 13) 3 4⟩),
   (3, ⟨[⟨14, [(0, .cst 5), (1, .inst 11), (2, .inst 13)]⟩, ⟨15, [(0, .cst 6), (1, .inst 11), (2, .inst 13)]⟩], [], .ret (some (.inst 14))⟩),
   (4, ⟨[⟨16, [(2, .inst 13)]⟩], [], .br 2⟩)]

def keys (F : Func XOp Int) : List (Nat × List (List Nat)) := F.order.map fun b => (b, match F.blk b with | some B => B.phis.map (fun p => p.inc.map Prod.fst) | none => [])

/-- blocks 2 and 4 and the phi entries for block 2 disappear -/
theorem half_eliminated : (blockEliminate (fun _ => 0) half).map keys = some [(0, []), (1, []), (3, [[0, 1], [0, 1]])] := by decide +kernel

/-- the verifier accepts phis that do not agree about dead predecessors -/
def mixed : Func XOp Int := mk
  [(0, ⟨[], [], .br 2⟩),
   (1, ⟨[], [], .br 2⟩),
   (2, ⟨[⟨10, [(0, .cst 5)]⟩, ⟨11, [(0, .cst 6), (1, .cst 7)]⟩], [], .ret (some (.inst 11))⟩)]

/-- … but `removePhi` gives up at the first phi without an entry, so that BlockEliminate leaves an entry for a block that is gone, and the
verifier rejects the result. (No pass of the model produces such a function.) -/
theorem mixed_rejected : mixed.verify ordId = some true ∧ (blockEliminate (fun _ => 0) mixed).map keys = some [(0, []), (2, [[0], [0, 1]])] ∧
    ((blockEliminate (fun _ => 0) mixed).bind fun G => G.verify ordId) = some false := by
  refine ⟨by decide +kernel, by decide +kernel, by decide +kernel⟩

end Cmmc.SSA.Ex
