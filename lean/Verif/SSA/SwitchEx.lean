import Verif.SSA.SwitchPass
import Verif.SSA.SinkEx
/-! # C82 on concrete functions -/
namespace Cmmc.SSA.Ex
open Cmmc.SSA

/-- in this example language the opcode `mul` is `==` and `lt` is `!=` -/
def wsem : XOp → List Int → (Int → Int) → Res Int (Int → Int) Int Unit
  | .mul, [a, b], m => .ok (if a = b then 1 else 0) m []
  | .lt, [a, b], m => .ok (if a = b then 0 else 1) m []
  | .load, [p], m => .ok (m p) m []
  | .print, [v], m => .ok 0 m [v]
  | _, _, _ => .ub

def WL : Lang where
  V := Int
  M := Int → Int
  E := Int
  H := Unit
  Op := XOp
  C := Int
  decOp := inferInstance
  decC := inferInstance
  cval := id
  sem := wsem
  truth := fun v => some (decide (v ≠ 0))
  key := some

def wb : B2W XOp Int where
  cmp := fun op => match op with | .mul => some true | .lt => some false | _ => none
  int := some
  dense := fun n r => decide (r ≤ 2 * n)

def wmv : XOp → Bool
  | .mul | .lt => true
  | _ => false

theorem wl_movable : Movable WL wmv := by
  intro op h vs
  cases op <;> simp only [wmv, Bool.false_eq_true] at h <;>
    (show (∀ m, wsem _ vs m = _) ∨ _
     match vs with
     | [] => exact .inl (fun m => rfl)
     | [_] => exact .inl (fun m => rfl)
     | [a, b] => exact .inr ⟨_, fun m => rfl⟩
     | _ :: _ :: _ :: _ => exact .inl (fun m => rfl))

theorem wl_sw : SwLang WL wb wmv := by
  constructor
  · intro op e h
    cases op <;> simp only [wb, reduceCtorEq] at h <;> rfl
  · intro (op : XOp) e (c : Int) k (v : Int) m (r : Int) m' es h1 h2 h3
    have h2' : c = k := Option.some.inj h2
    subst h2'
    refine ⟨v, rfl, ?_⟩
    show some (decide ((r : Int) ≠ 0)) = _
    cases op <;> simp only [wb, reduceCtorEq, Option.some.injEq] at h1
    · have : Res.ok (if v = c then (1 : Int) else 0) m [] = Res.ok r m' es := h3
      simp only [Res.ok.injEq] at this
      rw [← this.1, ← h1]
      by_cases hv : v = c <;> simp [hv]
    · have : Res.ok (if v = c then (0 : Int) else 1) m [] = Res.ok r m' es := h3
      simp only [Res.ok.injEq] at this
      rw [← this.1, ← h1]
      by_cases hv : v = c <;> simp [hv]

/-- a sufficient test for `LinkFree` -/
def linksFree (P : B2W XOp Int) (mv : XOp → Bool) (F : Func XOp Int) : Bool :=
  F.order.all fun a => match P.matchEqual F a with
    | none => true
    | some (base, _, _, b) => match P.matchEqual F b with
      | none => true
      | some (base', _, _, _) => decide (base' ≠ base) || match F.blk b with | none => true | some B => B.phis.isEmpty && B.body.all (fun i => mv i.op)

theorem linkFree_of {P : B2W XOp Int} {mv : XOp → Bool} {F : Func XOp Int} (hl : F.Listed) (h : linksFree P mv F = true) : LinkFree P mv F := by
  intro base a k t b k' t' f' B h1 h2 hB _
  obtain ⟨A, _, _, _, _, _, hA, _⟩ := matchEqual_some h1
  have := List.all_eq_true.1 h a (hl a A hA)
  rw [h1] at this
  simp only [h2, hB] at this
  simp at this
  exact this

/-- `x = a[1]; if(x == 1) f(); else if(x != 2) { if(x == 4) f(); else if(x == 3) return 7; } else print(6); return x;` -/
def swChain : Func XOp Int := mk
  [(0, ⟨[], [⟨10, .load, [.cst 1]⟩, ⟨11, .mul, [.inst 10, .cst 1]⟩], .cbr (.inst 11) 5 1⟩),
   (1, ⟨[], [⟨12, .lt, [.inst 10, .cst 2]⟩], .cbr (.inst 12) 2 6⟩),
   (2, ⟨[], [⟨13, .mul, [.inst 10, .cst 4]⟩], .cbr (.inst 13) 5 3⟩),
   (3, ⟨[], [⟨14, .mul, [.inst 10, .cst 3]⟩], .cbr (.inst 14) 7 4⟩),
   (4, ⟨[⟨20, [(3, .inst 10), (6, .cst 9)]⟩], [], .ret (some (.inst 20))⟩),
   (5, ⟨[], [⟨15, .print, [.cst 5]⟩], .ret (some (.cst 5))⟩),
   (6, ⟨[], [⟨16, .print, [.cst 6]⟩], .br 4⟩),
   (7, ⟨[], [], .ret (some (.cst 7))⟩)]

theorem swChain_wf : LiveWf (swChain : WL.F) := (mk_proper _ (by decide +kernel)).1.liveWf_of_allLive (L := WL) (mk_proper _ (by decide +kernel)).2
theorem swChain_free : LinkFree wb wmv swChain := linkFree_of (mk_listed _) (by decide +kernel)
theorem swChain_live : ∀ b ∈ swChain.order, Live (swChain : WL.F) b := by
  intro b hb
  obtain ⟨B, hB⟩ := swChain_wf.total b hb
  exact (mk_proper _ (by decide +kernel) : Proper swChain ∧ AllLive swChain).2 b B hB

/-- the first block becomes a switch over four sorted cases, and the phi of the default block gets an entry for it -/
theorem swChain_result : (branch2Switch wb true swChain.order swChain).bind (fun G => (G.blk 0).map (fun B => B.term.targets)) = some [4, 5, 6, 7, 5] := by decide +kernel
theorem swChain_phis : (branch2Switch wb true swChain.order swChain).bind (fun G => (G.blk 4).map (fun B => B.phis.map Phi.ops)) = some [[.inst 10, .cst 9, .inst 10]] := by decide +kernel

theorem swChain_same : ∃ G, branch2Switch wb true swChain.order swChain = some G ∧
    Ends WL swChain (fun _ => (8 : Int)) (.ret (some (8 : Int)) (fun _ => (8 : Int)) []) ∧ Ends WL G (fun _ => (8 : Int)) (.ret (some (8 : Int)) (fun _ => (8 : Int)) []) := by
  obtain ⟨G, h1, _, h2⟩ := C82_branch2Switch_partial (L := WL) wl_sw wl_movable true swChain_wf swChain_free swChain_live
  have h3 : Ends WL swChain (fun _ => (8 : Int)) (.ret (some (8 : Int)) (fun _ => (8 : Int)) []) := ⟨6, rfl⟩
  exact ⟨G, h1, h3, (h2 _).1 _ h3 nofun⟩

/-- the same with `print(0)` in block 1 -/
def noisy : Func XOp Int := mk
  [(0, ⟨[], [⟨10, .load, [.cst 1]⟩, ⟨11, .mul, [.inst 10, .cst 1]⟩], .cbr (.inst 11) 5 1⟩),
   (1, ⟨[], [⟨17, .print, [.cst 0]⟩, ⟨12, .lt, [.inst 10, .cst 2]⟩], .cbr (.inst 12) 2 6⟩),
   (2, ⟨[], [⟨13, .mul, [.inst 10, .cst 4]⟩], .cbr (.inst 13) 5 3⟩),
   (3, ⟨[], [⟨14, .mul, [.inst 10, .cst 3]⟩], .cbr (.inst 14) 7 4⟩),
   (4, ⟨[⟨20, [(3, .inst 10), (6, .cst 9)]⟩], [], .ret (some (.inst 20))⟩),
   (5, ⟨[], [⟨15, .print, [.cst 5]⟩], .ret (some (.cst 5))⟩),
   (6, ⟨[], [⟨16, .print, [.cst 6]⟩], .br 4⟩),
   (7, ⟨[], [], .ret (some (.cst 7))⟩)]

theorem noisy_wf : LiveWf (noisy : WL.F) := (mk_proper _ (by decide +kernel)).1.liveWf_of_allLive (L := WL) (mk_proper _ (by decide +kernel)).2

theorem noisy_converted : ((branch2Switch wb true noisy.order noisy).bind (fun G => (G.blk 0).map (fun B => B.term.targets))) = some [4, 5, 6, 7, 5] := by decide +kernel

/-- without `LinkFree` the claim is false of the code: the output of the skipped block is lost -/
theorem C82_linkFree_needed : ∃ G, branch2Switch wb true noisy.order noisy = some G ∧ ¬ Refines WL noisy G := by
  refine ⟨(branch2Switch wb true noisy.order noisy).get (by decide +kernel), by simp, fun h => ?_⟩
  have h1 : Ends WL noisy (fun _ => (8 : Int)) (.ret (some (8 : Int)) (fun _ => (8 : Int)) [(0 : Int)]) := ⟨6, rfl⟩
  obtain ⟨n, hn⟩ := (h _).1 _ h1 nofun
  have h2 : Ends WL ((branch2Switch wb true noisy.order noisy).get (by decide +kernel)) (fun _ => (8 : Int)) (.ret (some (8 : Int)) (fun _ => (8 : Int)) []) := ⟨6, rfl⟩
  obtain ⟨n', hn'⟩ := h2
  have : ([0] : List Int) = [] := (Beh.ret.inj (run_det hn hn')).2.2
  cases this

end Cmmc.SSA.Ex
