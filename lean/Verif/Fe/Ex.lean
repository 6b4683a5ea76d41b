import Verif.Fe.Behave
/-!
# Front end: a concrete program
-/
namespace Cmmc.Fe.Ex
open Cmmc Cmmc.Fe

/-- one global `int g[8]`, one constant `const int N = 5`, events are numbers -/
def X : Ext where
  World := Int → Nat
  E := Nat
  H := Unit
  rd w g off := if g = "g" ∧ 0 ≤ off ∧ off < 8 then some (w off) else if g = "N" ∧ off = 0 then some 5 else none
  wr w g off n := if g = "g" ∧ 0 ≤ off ∧ off < 8 then some (fun i => if i = off then n else w i) else none

def gs : List Glob := [⟨"g", .arr 8 (.int .w32), true, false, none⟩, ⟨"N", .int .w32, true, true, some 5⟩]

def i32 : IT := ⟨.w32, true⟩
def i8 : IT := ⟨.w8, true⟩
def lit (n : Nat) : Expr := .lit n i32

/-- an event -/
abbrev ev (n : Nat) : X.E := n

/-- `put(int)` emits its argument, `get()` returns 7, `stop()` does not return -/
def sigs : Sigs := fun f => if f = "put" then some ([i32], none) else if f = "get" then some ([], some i32) else if f = "stop" then some ([], none) else none

def lib : Calls X := fun f ns w =>
  if f = "put" then .ok 0 w ns else if f = "get" then .ok 7 w [] else if f = "stop" then .halt [] () else .ub

/--
```
int f(int a, char b) {
  int s = 0;
  int t[4];
  for (int i = 0; i < N; i++) {
    if (i == 3) continue;
    int a = i * 2;          // shadows the parameter
    t[i % 4] = a - b;
    s += t[i % 4] && a > 1 ? a : -1;
    put(s);
    g[i] = s;
    if (s > 100) break;
  }
  return s + a;
}
```
-/
def f : Fn where
  params := [("a", i32, false), ("b", i8, false)]
  ret := some i32
  body :=
    .seq (.decl "s" (.int .w32) true false (some (lit 0))) <|
    .seq (.decl "t" (.arr 4 (.int .w32)) true false none) <|
    .seq (.for (.decl "i" (.int .w32) true false (some (lit 0))) (some (.bin .lt (.id "i") (.id "N"))) (some (.incdec false true (.id "i")))
      (.scope <|
        .seq (.ifThen (.bin .eq (.id "i") (lit 3)) .cont) <|
        .seq (.decl "a" (.int .w32) true false (some (.bin .mul (.id "i") (lit 2)))) <|
        .seq (.expr (.assign (.idx (.id "t") (.bin .rem (.id "i") (lit 4))) (.bin .sub (.id "a") (.id "b")))) <|
        .seq (.expr (.cassign .add (.id "s")
          (.sel (.land (.idx (.id "t") (.bin .rem (.id "i") (lit 4))) (.bin .gt (.id "a") (lit 1))) (.id "a") (.un .neg (lit 1))))) <|
        .seq (.expr (.call "put" (.cons (.id "s") .nil))) <|
        .seq (.expr (.assign (.idx (.id "g") (.id "i")) (.id "s"))) <|
        .ifThen (.bin .gt (.id "s") (lit 100)) .brk))
    (.ret (some (.bin .add (.id "s") (.id "a"))))

/-- the front end accepts it -/
theorem accepted : (emitFn sigs .w64 gs f).isSome = true := by decide +kernel

def FOut.summary : FOut X → Option (Option Int × List Nat × List Nat)
  | .ret v w tr => some (v, [w 0, w 1, w 2, w 3, w 4], tr)
  | _ => none

/-- what it does: `f(10, -2)`: the values of `s` are -1 (2^32-1), 1, 5, 13; the result is 23; `g[3]` is untouched -/
theorem source_runs : FOut.summary (runFn sigs lib (globEnv gs) f 6 [10, 254] (fun _ => 0)) =
    some (some 23, [4294967295, 1, 5, 0, 13], [4294967295, 1, 5, 13]) := by decide +kernel

/-- with 2 iterations we do not see the end -/
theorem source_more : FOut.summary (runFn sigs lib (globEnv gs) f 2 [10, 254] (fun _ => 0)) = none := by decide +kernel

theorem separate : Separate X := by
  intro w g off n w' g' h hne
  simp only [X] at h ⊢
  by_cases hg : g = "g" ∧ 0 ≤ off ∧ off < 8
  · rw [if_pos hg] at h
    have : g' ≠ "g" := fun hc => hne (by rw [hc, hg.1])
    simp [this]
  · rw [if_neg hg] at h; cases h

theorem constOk (w : X.World) : ConstOk gs w := by
  intro g hg wd n n' h1 h2 h3 h4
  simp only [gs, List.mem_cons, List.not_mem_nil, or_false] at hg
  rcases hg with rfl | rfl
  · cases h2
  · cases h1
    cases h3
    simp [X] at h4
    subst h4
    rfl

/-- the emitted code returns 23 and has the same effects -/
theorem target_runs : ∃ c m', emitFn sigs .w64 gs f = some c ∧
    SSA.Ends (irL lib [10, 254]) (finish f c) (fresh (fun _ => 0)) (.ret (some (.int 23)) m' ([4294967295, 1, 5, 13] : List Nat)) := by
  obtain ⟨c, hc⟩ := Option.isSome_iff_exists.1 accepted
  have h := C61_function (call := lib) (tc := lib) (by decide) hc (by decide +kernel) separate (fun _ _ _ _ _ => rfl)
    (fun _ _ _ _ _ _ _ _ => constOk _) (as := [10, 254]) (by decide) (fresh (fun _ => 0)) (constOk _)
  rcases hr : runFn sigs lib (globEnv gs) f 6 [10, 254] (fun _ => 0) with ⟨v, w, tr⟩ | _ | ⟨hh, tr⟩ | tr
  · have hs := source_runs
    rw [hr] at hs
    simp only [FOut.summary, Option.some.injEq] at hs
    have h1 : v = some 23 := congrArg Prod.fst hs
    have h3 : tr = ([4294967295, 1, 5, 13] : List Nat) := congrArg (fun p => p.2.2) hs
    subst h1 h3
    obtain ⟨m', he, _⟩ := h.1 _ _ _ ⟨fun tr hc => by simp at hc, 6, hr⟩
    exact ⟨c, m', hc, he⟩
  · have hs := source_runs; rw [hr] at hs; cases hs
  · have hs := source_runs; rw [hr] at hs; cases hs
  · have hs := source_runs; rw [hr] at hs; cases hs

/-! ## an endless function -/

/-- `int h() { while (1) put(get()); }` -/
def h : Fn where
  params := []
  ret := some i32
  body := .while (lit 1) (.expr (.call "put" (.cons (.call "get" .nil) .nil)))

theorem h_accepted : (emitFn sigs .w64 gs h).isSome = true := by decide +kernel

abbrev ρ0 : SEnv := [[], globEnv gs]

theorem h_cond (S : SSt X) : evalC sigs lib ρ0 (lit 1) S = .ok true S := by
  simp only [evalC, lit, evalE, Out.bind, rval]
  congr 1

theorem h_body (n : Nat) (S : SSt X) : exec sigs lib (some i32) n ρ0 (.expr (.call "put" (.cons (.call "get" .nil) .nil))) S =
    .ok (.normal ρ0) { S with tr := S.tr ++ [] ++ [ev 7] } := by
  rw [exec]
  have h1 : sigs "put" = some ([i32], none) := rfl
  have h2 : sigs "get" = some ([], some i32) := rfl
  have h3 : ∀ w, lib "get" [] w = .ok 7 w [] := fun _ => rfl
  have h5 : raw i32.w (conv i32 (conv i32 (7 : Nat))) = 7 := by decide
  have h4 : ∀ w, lib "put" [7] w = .ok 0 w [ev 7] := fun _ => rfl
  simp only [evalE, evalArgs, h1, h2, h3, Out.bind, rval, h5, h4, Out.bindS]

/-- it never ends; after `n` iterations it has emitted `n` sevens -/
theorem h_diverges (w : X.World) (n : Nat) : runFn sigs lib (globEnv gs) h n [] w = .more (List.replicate n (ev 7)) := by
  have key : ∀ k (S : SSt X), loop (X := X) ρ0 (evalC sigs lib ρ0 (lit 1))
      (exec sigs lib (some i32) n ρ0 (.expr (.call "put" (.cons (.call "get" .nil) .nil)))) (fun s => .ok .void s) k S =
        .more (S.tr ++ List.replicate k (ev 7)) := by
    intro k
    induction k with
    | zero => intro S; rw [loop, List.replicate_zero, List.append_nil]
    | succ k ih =>
      intro S
      rw [loop, h_cond]
      simp only [Out.bindS, if_true]
      rw [h_body]
      simp only [SOut.bind]
      rw [ih, List.replicate_succ]
      simp
  unfold runFn
  have hb : h.body = .while (lit 1) (.expr (.call "put" (.cons (.call "get" .nil) .nil))) := rfl
  have hp : h.params = [] := rfl
  have hr : h.ret = some i32 := rfl
  rw [hb, hp, hr]
  simp only [bindParams]
  rw [exec, key]
  simp

/-! ## a recursive program -/

/-- `int fact(int n) { if (n <= 1) return 1; return n * fact(n - 1); }`  `int main() { put(fact(N)); return fact(3); }` -/
def fact : Fn where
  params := [("n", i32, false)]
  ret := some i32
  body := .seq (.ifThen (.bin .le (.id "n") (lit 1)) (.ret (some (lit 1))))
    (.ret (some (.bin .mul (.id "n") (.call "fact" (.cons (.bin .sub (.id "n") (lit 1)) .nil)))))

def main : Fn where
  params := []
  ret := some i32
  body := .seq (.expr (.call "put" (.cons (.call "fact" (.cons (.id "N") .nil)) .nil))) (.ret (some (.call "fact" (.cons (lit 3) .nil))))

def prog : Prog where
  globs := gs
  fns := fun f => if f = "fact" then some fact else if f = "main" then some main else none
  decls := sigs

theorem prog_ok : prog.Ok .w64 := by
  intro f fn hf
  simp only [prog] at hf
  split at hf
  · cases hf
    exact ⟨by decide, Option.isSome_iff_exists.1 (by decide +kernel)⟩
  · split at hf
    · cases hf
      exact ⟨by decide, Option.isSome_iff_exists.1 (by decide +kernel)⟩
    · cases hf

def CallRes.summary : CallRes X → Option (Nat × List Nat)
  | .ok r _ es => some (r, es)
  | _ => none

/-- source: `main` emits 5! and returns 3! -/
theorem prog_source : CallRes.summary (prog.scall lib 1 8 "main" [] (fun _ => 0)) = some (6, [120]) := by decide +kernel

/-- and so does the emitted code -/
theorem prog_target : CallRes.summary (tcall (prog.code .w64) lib 8 "main" [] (fun _ => 0)) = some (6, [120]) := by
  have h := prog_source
  have := C62_program (P := .w64) (by decide) prog_ok separate (lib := lib) (fun _ _ _ _ _ _ _ _ => constOk _) 1 8 "main" [] (fun _ => 0)
    (constOk _) (by intro hc; rw [hc] at h; cases h)
  rw [this.1]
  exact h

end Cmmc.Fe.Ex
