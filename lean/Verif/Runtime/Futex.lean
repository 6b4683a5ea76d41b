import Mathlib.Data.List.Perm.Basic
import Mathlib.Data.List.Perm.Subperm
import Mathlib.Data.List.Nodup
import Mathlib.Tactic.Linarith
import Mathlib.Algebra.BigOperators.Group.List.Basic
/-!
# The worker protocol of `cmmcParallelFor` (cmmc/Runtime/cmmc_sysy_rt.cpp:38-96, 228-264): C20

Interleaving semantics (all accesses are `seq_cst` atomics, so interleaving of single accesses is the C++ semantics). Every atomic
access and every futex system call is one step. `FUTEX_WAIT` with expected value 0 sleeps iff the word is 0 at the time of the call,
`FUTEX_WAKE` wakes the waiter if there is one; spurious wake-ups are separate steps that may happen at any time. The main thread is
given by the flattened list of the runtime operations it still has to perform. Start-up and shut-down (`run = 0`) are not
modelled; `worker.run` stays 1.
-/
namespace Cmmc.Futex

/-- a piece of work: loop function, begin, end -/
structure Chunk where
  f : Nat
  b : Int
  e : Int
deriving DecidableEq, Repr

/-- program counter of a worker (`cmmcWorker`, lines 70-92) -/
inductive Pc
  /-- line 78: check `run` -/
  | top
  /-- line 44: `ready.compare_exchange_strong(1, 0)` -/
  | cas
  /-- line 46: about to call `FUTEX_WAIT` on `ready` -/
  | fut
  /-- asleep in `FUTEX_WAIT` -/
  | sleep
  /-- line 85: load `func` -/
  | ldF
  /-- line 85: load `beg` -/
  | ldB (f : Nat)
  /-- line 85: load `end` -/
  | ldE (f : Nat) (b : Int)
  /-- line 85: run the loop body on the chunk -/
  | exec (c : Chunk)
  /-- line 52: `done.compare_exchange_strong(0, 1)` -/
  | post
  /-- line 53: `FUTEX_WAKE` on `done` -/
  | wake
deriving DecidableEq, Repr

/-- `struct Worker` (lines 58-68) with its thread's program counter -/
structure W where
  pc : Pc
  ready : Bool
  done : Bool
  f : Nat
  b : Int
  e : Int

/-- operations of the main thread in `spawnAndJoin` (lines 240-262) -/
inductive Op
  /-- line 251 -/
  | setF (i f : Nat)
  /-- line 252 -/
  | setB (i : Nat) (b : Int)
  /-- line 253 -/
  | setE (i : Nat) (e : Int)
  /-- line 255: `ready.post()` (lines 50-55) -/
  | post (i : Nat)
  /-- line 260: `done.wait()` (lines 42-48) -/
  | wait (i : Nat)
  /-- `cmmcParallelFor` returns -/
  | ret
deriving DecidableEq, Repr

/-- where the main thread is inside `post`/`wait` -/
inductive Mode
  | start
  /-- `post`: CAS succeeded, about to `FUTEX_WAKE` -/
  | wake
  /-- `wait`: CAS failed, about to `FUTEX_WAIT` -/
  | fut
  | sleep
deriving DecidableEq, Repr

/-- one call of `cmmcParallelFor`: the chunks launched, with their workers (the list computed by `C19`'s `spawn`) -/
abbrev Call := List (Nat × Chunk)

/-- the operations performed by one call: launch all chunks, then join all of them (lines 240-262) -/
def launch (p : Nat × Chunk) : List Op := [.setF p.1 p.2.f, .setB p.1 p.2.b, .setE p.1 p.2.e, .post p.1]
def compile (c : Call) : List Op := c.flatMap launch ++ c.map (fun p => .wait p.1) ++ [.ret]

structure S where
  ops : List Op
  mode : Mode
  w : Nat → W
  /-- ghost: the chunks executed so far, with the executing worker, in order -/
  log : List (Nat × Chunk)

def setW (w : Nat → W) (i : Nat) (x : W) : Nat → W := fun j => if j = i then x else w j

/-- waking the worker sleeping on `ready` -/
def wakeW (x : W) : W := if x.pc = .sleep then { x with pc := .cas } else x

/-- waking the main thread if it sleeps on worker `i`'s `done` -/
def wakeMain (s : S) (i : Nat) : Mode := if s.mode = .sleep ∧ s.ops.head? = some (.wait i) then .start else s.mode

/-- one step of one of the threads (main, or worker `i < n`), spurious wake-ups excluded -/
inductive Step (n : Nat) : S → S → Prop
  | setF {s i f ops} : s.ops = .setF i f :: ops → Step n s { s with ops := ops, w := setW s.w i { s.w i with f := f } }
  | setB {s i b ops} : s.ops = .setB i b :: ops → Step n s { s with ops := ops, w := setW s.w i { s.w i with b := b } }
  | setE {s i e ops} : s.ops = .setE i e :: ops → Step n s { s with ops := ops, w := setW s.w i { s.w i with e := e } }
  | postOk {s i ops} : s.ops = .post i :: ops → s.mode = .start → (s.w i).ready = false →
      Step n s { s with mode := .wake, w := setW s.w i { s.w i with ready := true } }
  | postFail {s i ops} : s.ops = .post i :: ops → s.mode = .start → (s.w i).ready = true → Step n s { s with ops := ops }
  | postWake {s i ops} : s.ops = .post i :: ops → s.mode = .wake →
      Step n s { s with ops := ops, mode := .start, w := setW s.w i (wakeW (s.w i)) }
  | waitOk {s i ops} : s.ops = .wait i :: ops → s.mode = .start → (s.w i).done = true →
      Step n s { s with ops := ops, w := setW s.w i { s.w i with done := false } }
  | waitFail {s i ops} : s.ops = .wait i :: ops → s.mode = .start → (s.w i).done = false → Step n s { s with mode := .fut }
  | waitAgain {s i ops} : s.ops = .wait i :: ops → s.mode = .fut → (s.w i).done = true → Step n s { s with mode := .start }
  | waitSleep {s i ops} : s.ops = .wait i :: ops → s.mode = .fut → (s.w i).done = false → Step n s { s with mode := .sleep }
  | ret {s ops} : s.ops = .ret :: ops → Step n s { s with ops := ops }
  | wTop {s i} : i < n → (s.w i).pc = .top → Step n s { s with w := setW s.w i { s.w i with pc := .cas } }
  | wCasOk {s i} : i < n → (s.w i).pc = .cas → (s.w i).ready = true →
      Step n s { s with w := setW s.w i { s.w i with pc := .ldF, ready := false } }
  | wCasFail {s i} : i < n → (s.w i).pc = .cas → (s.w i).ready = false →
      Step n s { s with w := setW s.w i { s.w i with pc := .fut } }
  | wAgain {s i} : i < n → (s.w i).pc = .fut → (s.w i).ready = true →
      Step n s { s with w := setW s.w i { s.w i with pc := .cas } }
  | wSleep {s i} : i < n → (s.w i).pc = .fut → (s.w i).ready = false →
      Step n s { s with w := setW s.w i { s.w i with pc := .sleep } }
  | wLdF {s i} : i < n → (s.w i).pc = .ldF → Step n s { s with w := setW s.w i { s.w i with pc := .ldB (s.w i).f } }
  | wLdB {s i f} : i < n → (s.w i).pc = .ldB f → Step n s { s with w := setW s.w i { s.w i with pc := .ldE f (s.w i).b } }
  | wLdE {s i f b} : i < n → (s.w i).pc = .ldE f b →
      Step n s { s with w := setW s.w i { s.w i with pc := .exec ⟨f, b, (s.w i).e⟩ } }
  | wExec {s i c} : i < n → (s.w i).pc = .exec c →
      Step n s { s with w := setW s.w i { s.w i with pc := .post }, log := s.log ++ [(i, c)] }
  | wPostOk {s i} : i < n → (s.w i).pc = .post → (s.w i).done = false →
      Step n s { s with w := setW s.w i { s.w i with pc := .wake, done := true } }
  | wPostFail {s i} : i < n → (s.w i).pc = .post → (s.w i).done = true →
      Step n s { s with w := setW s.w i { s.w i with pc := .top } }
  | wWake {s i} : i < n → (s.w i).pc = .wake →
      Step n s { s with mode := wakeMain s i, w := setW s.w i { s.w i with pc := .top } }

/-- spurious wake-ups (`FUTEX_WAIT` may return at any time) -/
inductive Spurious (n : Nat) : S → S → Prop
  | main {s} : s.mode = .sleep → Spurious n s { s with mode := .start }
  | worker {s i} : i < n → (s.w i).pc = .sleep → Spurious n s { s with w := setW s.w i { s.w i with pc := .cas } }

/-- reachable from the initial state: the main thread about to perform `calls`, all workers just started -/
def init (calls : List Call) : S :=
  { ops := calls.flatMap compile, mode := .start, w := fun _ => ⟨.top, false, false, 0, 0, 0⟩, log := [] }

inductive Reach (n : Nat) (calls : List Call) : S → Prop
  | init : Reach n calls (init calls)
  | step {s t} : Reach n calls s → Step n s t → Reach n calls t
  | spurious {s t} : Reach n calls s → Spurious n s t → Reach n calls t

/-! ## invariant -/

def Op.worker? : Op → Option Nat
  | .setF i _ | .setB i _ | .setE i _ | .post i | .wait i => some i
  | .ret => none

def proj (i : Nat) (ops : List Op) : List Op := ops.filter fun o => o.worker? = some i
def blockOf (i : Nat) (c : Chunk) : List Op := [.setF i c.f, .setB i c.b, .setE i c.e, .post i, .wait i]
def blocks (i : Nat) (T : List Chunk) : List Op := T.flatMap (blockOf i)
def logOf (i : Nat) (l : List (Nat × Chunk)) : List Chunk := (l.filter fun p => p.1 = i).map Prod.snd
def tasksOf (i : Nat) (calls : List Call) : List Chunk := logOf i calls.flatten

def waking (s : S) (i : Nat) : Prop := s.mode = .wake ∧ s.ops.head? = some (.post i)
def msleep (s : S) (i : Nat) : Prop := s.mode = .sleep ∧ s.ops.head? = some (.wait i)
instance (s : S) (i : Nat) : Decidable (waking s i) := by unfold waking; infer_instance
/-- the operations on worker `i` still to be performed, a `post` whose CAS is done not counted -/
def remOps (s : S) (i : Nat) : List Op := if waking s i then (proj i s.ops).tail else proj i s.ops

def Idle (p : Pc) : Prop := p = .top ∨ p = .cas ∨ p = .fut ∨ p = .sleep ∨ p = .wake

/-- phases of worker `i`: `all` its tasks overall, `lg` those executed -/
inductive Ph (i : Nat) (all : List Chunk) (rem : List Op) (wk ms : Prop) (x : W) (lg : List Chunk) : Prop
  | quiet (T : List Chunk) : rem = blocks i T → x.ready = false → x.done = false → Idle x.pc → lg ++ T = all → Ph i all rem wk ms x lg
  | set1 (c : Chunk) (T : List Chunk) : rem = .setB i c.b :: .setE i c.e :: .post i :: .wait i :: blocks i T → x.f = c.f →
      x.ready = false → x.done = false → Idle x.pc → lg ++ c :: T = all → Ph i all rem wk ms x lg
  | set2 (c : Chunk) (T : List Chunk) : rem = .setE i c.e :: .post i :: .wait i :: blocks i T → x.f = c.f → x.b = c.b →
      x.ready = false → x.done = false → Idle x.pc → lg ++ c :: T = all → Ph i all rem wk ms x lg
  | set3 (c : Chunk) (T : List Chunk) : rem = .post i :: .wait i :: blocks i T → x.f = c.f → x.b = c.b → x.e = c.e →
      x.ready = false → x.done = false → Idle x.pc → lg ++ c :: T = all → Ph i all rem wk ms x lg
  | posted (c : Chunk) (T : List Chunk) : rem = .wait i :: blocks i T → x.f = c.f → x.b = c.b → x.e = c.e →
      x.ready = true → x.done = false → Idle x.pc → (x.pc = .sleep → wk) → lg ++ c :: T = all → Ph i all rem wk ms x lg
  | running (c : Chunk) (T : List Chunk) : rem = .wait i :: blocks i T → x.f = c.f → x.b = c.b → x.e = c.e →
      x.ready = false → x.done = false → (x.pc = .ldF ∨ x.pc = .ldB c.f ∨ x.pc = .ldE c.f c.b ∨ x.pc = .exec c) →
      lg ++ c :: T = all → Ph i all rem wk ms x lg
  | executed (T : List Chunk) : rem = .wait i :: blocks i T → x.ready = false → x.done = false → x.pc = .post →
      lg ++ T = all → Ph i all rem wk ms x lg
  | signalled (T : List Chunk) : rem = .wait i :: blocks i T → x.ready = false → x.done = true → Idle x.pc →
      (ms → x.pc = .wake) → lg ++ T = all → Ph i all rem wk ms x lg

def ModeOK (s : S) : Prop :=
  (s.mode = .wake → ∃ i, s.ops.head? = some (.post i)) ∧ (s.mode = .fut ∨ s.mode = .sleep → ∃ i, s.ops.head? = some (.wait i))

def PhS (calls : List Call) (s : S) (i : Nat) : Prop :=
  Ph i (tasksOf i calls) (remOps s i) (waking s i) (msleep s i) (s.w i) (logOf i s.log)

structure Inv (calls : List Call) (s : S) : Prop where
  mode : ModeOK s
  ph : ∀ i, PhS calls s i

@[simp] theorem setW_self (w : Nat → W) (i : Nat) (x : W) : setW w i x i = x := by simp [setW]
theorem setW_ne (w : Nat → W) {i j : Nat} (x : W) (h : j ≠ i) : setW w i x j = w j := by simp [setW, h]

/-- changing only the worker's own pc/flags (and possibly the log): the other workers' phases do not change -/
theorem ph_other {calls : List Call} {s t : S} {j : Nat} (h : PhS calls s j) (hr : remOps t j = remOps s j)
    (hw : waking s j → waking t j) (hm : msleep t j → msleep s j) (hx : t.w j = s.w j) (hl : logOf j t.log = logOf j s.log) :
    PhS calls t j := by
  unfold PhS at *
  rw [hr, hx, hl]
  cases h with
  | quiet T a b c d e => exact .quiet T a b c d e
  | set1 c T a b d e f g => exact .set1 c T a b d e f g
  | set2 c T a b d e f g k => exact .set2 c T a b d e f g k
  | set3 c T a b d e f g k l => exact .set3 c T a b d e f g k l
  | posted c T a b d e f g k l m => exact .posted c T a b d e f g k (fun h => hw (l h)) m
  | running c T a b d e f g k l => exact .running c T a b d e f g k l
  | executed T a b c d e => exact .executed T a b c d e
  | signalled T a b c d e f => exact .signalled T a b c d (fun h => e (hm h)) f

theorem blocks_nil (i : Nat) : blocks i [] = [] := rfl
theorem blocks_cons (i : Nat) (c : Chunk) (T : List Chunk) : blocks i (c :: T) = .setF i c.f :: .setB i c.b :: .setE i c.e :: .post i :: .wait i :: blocks i T := rfl

theorem blocks_head (i : Nat) (T : List Chunk) : blocks i T = [] ∨ ∃ f r, blocks i T = .setF i f :: r := by
  cases T with
  | nil => exact Or.inl rfl
  | cons c T => exact Or.inr ⟨_, _, blocks_cons i c T⟩

/-- what a phase tells when the next operation on `i` is known -/
theorem ph_setF {i f : Nat} {all rem wk ms x lg} (h : Ph i all (.setF i f :: rem) wk ms x lg) :
    ∃ c T, f = c.f ∧ rem = .setB i c.b :: .setE i c.e :: .post i :: .wait i :: blocks i T ∧ x.ready = false ∧ x.done = false ∧
      Idle x.pc ∧ lg ++ c :: T = all := by
  cases h with
  | quiet T a b c d e =>
    cases T with
    | nil => simp [blocks_nil] at a
    | cons k T =>
      rw [blocks_cons] at a
      simp only [List.cons.injEq, Op.setF.injEq, true_and] at a
      exact ⟨k, T, a.1, a.2, b, c, d, e⟩
  | set1 c T a => simp at a
  | set2 c T a => simp at a
  | set3 c T a => simp at a
  | posted c T a => simp at a
  | running c T a => simp at a
  | executed T a => simp at a
  | signalled T a => simp at a

theorem ph_setB {i : Nat} {v : Int} {all rem wk ms x lg} (h : Ph i all (.setB i v :: rem) wk ms x lg) :
    ∃ c T, v = c.b ∧ rem = .setE i c.e :: .post i :: .wait i :: blocks i T ∧ x.f = c.f ∧ x.ready = false ∧ x.done = false ∧
      Idle x.pc ∧ lg ++ c :: T = all := by
  cases h with
  | quiet T a => rcases blocks_head i T with h | ⟨_, _, h⟩ <;> rw [h] at a <;> simp at a
  | set1 c T a b d e f g =>
    simp only [List.cons.injEq, Op.setB.injEq, true_and] at a
    exact ⟨c, T, a.1, a.2, b, d, e, f, g⟩
  | set2 c T a => simp at a
  | set3 c T a => simp at a
  | posted c T a => simp at a
  | running c T a => simp at a
  | executed T a => simp at a
  | signalled T a => simp at a

theorem ph_setE {i : Nat} {v : Int} {all rem wk ms x lg} (h : Ph i all (.setE i v :: rem) wk ms x lg) :
    ∃ c T, v = c.e ∧ rem = .post i :: .wait i :: blocks i T ∧ x.f = c.f ∧ x.b = c.b ∧ x.ready = false ∧ x.done = false ∧
      Idle x.pc ∧ lg ++ c :: T = all := by
  cases h with
  | quiet T a => rcases blocks_head i T with h | ⟨_, _, h⟩ <;> rw [h] at a <;> simp at a
  | set2 c T a b d e f g k =>
    simp only [List.cons.injEq, Op.setE.injEq, true_and] at a
    exact ⟨c, T, a.1, a.2, b, d, e, f, g, k⟩
  | set1 c T a => simp at a
  | set3 c T a => simp at a
  | posted c T a => simp at a
  | running c T a => simp at a
  | executed T a => simp at a
  | signalled T a => simp at a

theorem ph_post {i : Nat} {all rem wk ms x lg} (h : Ph i all (.post i :: rem) wk ms x lg) :
    ∃ c T, rem = .wait i :: blocks i T ∧ x.f = c.f ∧ x.b = c.b ∧ x.e = c.e ∧ x.ready = false ∧ x.done = false ∧
      Idle x.pc ∧ lg ++ c :: T = all := by
  cases h with
  | quiet T a => rcases blocks_head i T with h | ⟨_, _, h⟩ <;> rw [h] at a <;> simp at a
  | set3 c T a b d e f g k l =>
    simp only [List.cons.injEq, true_and] at a
    exact ⟨c, T, a, b, d, e, f, g, k, l⟩
  | set1 c T a => simp at a
  | set2 c T a => simp at a
  | posted c T a => simp at a
  | running c T a => simp at a
  | executed T a => simp at a
  | signalled T a => simp at a

theorem mode_start_of {s : S} (h : ModeOK s) {o : Op} {ops} (e : s.ops = o :: ops) (hp : ∀ i, o ≠ .post i) (hw : ∀ i, o ≠ .wait i) :
    s.mode = .start := by
  cases hm : s.mode with
  | start => rfl
  | wake => obtain ⟨i, hi⟩ := h.1 hm; rw [e] at hi; simp at hi; exact absurd hi (hp i)
  | fut => obtain ⟨i, hi⟩ := h.2 (Or.inl hm); rw [e] at hi; simp at hi; exact absurd hi (hw i)
  | sleep => obtain ⟨i, hi⟩ := h.2 (Or.inr hm); rw [e] at hi; simp at hi; exact absurd hi (hw i)

theorem proj_cons_same {i : Nat} {o : Op} {ops} (h : o.worker? = some i) : proj i (o :: ops) = o :: proj i ops := by
  unfold proj; rw [List.filter_cons_of_pos (by simp [h])]
theorem proj_cons_other {i : Nat} {o : Op} {ops} (h : o.worker? ≠ some i) : proj i (o :: ops) = proj i ops := by
  unfold proj; rw [List.filter_cons_of_neg (by simp [h])]

theorem rem_of_not_waking {s : S} {i : Nat} (h : ¬ waking s i) : remOps s i = proj i s.ops := by unfold remOps; rw [if_neg h]
theorem not_waking_of_mode {s : S} {i : Nat} (h : s.mode ≠ .wake) : ¬ waking s i := fun hc => h hc.1

/-- the main thread consumed its first operation (mode start before and after): others are unaffected -/
theorem pop_other {calls : List Call} {s : S} {o : Op} {ops} {j : Nat} {w' : Nat → W} (e : s.ops = o :: ops) (hm : s.mode = .start)
    (hj : o.worker? ≠ some j) (h : PhS calls s j) (hx : w' j = s.w j) : PhS calls { s with ops := ops, w := w' } j := by
  refine ph_other h ?_ (fun hc => absurd hc (not_waking_of_mode (by rw [hm]; simp))) ?_ hx rfl
  · rw [rem_of_not_waking (not_waking_of_mode (by simp [hm])), rem_of_not_waking (not_waking_of_mode (by simp [hm])), e,
      proj_cons_other hj]
  · intro hc; exact absurd hc.1 (by simp [hm])

theorem inv_step {n : Nat} {calls : List Call} {s t : S} (hI : Inv calls s) (h : Step n s t) : Inv calls t := by
  obtain ⟨hM, hP⟩ := hI
  -- worker steps that change neither `ops` nor `mode` nor the log
  have wstep : ∀ (i : Nat) (x : W), Ph i (tasksOf i calls) (remOps s i) (waking s i) (msleep s i) x (logOf i s.log) →
      Inv calls { s with w := setW s.w i x } := by
    intro i x hx
    refine ⟨hM, fun j => ?_⟩
    by_cases hj : j = i
    · subst hj
      unfold PhS
      simp only [setW_self]
      exact hx
    · exact ph_other (hP j) rfl id id (setW_ne _ _ hj) rfl
  cases h with
  | @setF i f ops e =>
    have hm := mode_start_of hM e (by simp) (by simp)
    have hnw : ∀ j, ¬ waking s j := fun j => not_waking_of_mode (by simp [hm])
    refine ⟨⟨by simp [hm], by simp [hm]⟩, fun j => ?_⟩
    by_cases hj : j = i
    · subst hj
      have hp := hP j
      unfold PhS at hp ⊢
      rw [rem_of_not_waking (hnw j), e, proj_cons_same rfl] at hp
      rw [rem_of_not_waking (not_waking_of_mode (by simp [hm]))]
      simp only [setW_self]
      obtain ⟨c, T, h1, h2, h3, h4, h5, h6⟩ := ph_setF hp
      exact .set1 c T h2 h1 h3 h4 h5 h6
    · exact pop_other e hm (by simp [Op.worker?]; exact fun h => hj h.symm) (hP j) (setW_ne _ _ hj)
  | @setB i f ops e =>
    have hm := mode_start_of hM e (by simp) (by simp)
    have hnw : ∀ j, ¬ waking s j := fun j => not_waking_of_mode (by simp [hm])
    refine ⟨⟨by simp [hm], by simp [hm]⟩, fun j => ?_⟩
    by_cases hj : j = i
    · subst hj
      have hp := hP j
      unfold PhS at hp ⊢
      rw [rem_of_not_waking (hnw j), e, proj_cons_same rfl] at hp
      rw [rem_of_not_waking (not_waking_of_mode (by simp [hm]))]
      simp only [setW_self]
      obtain ⟨c, T, h1, h2, h3, h4, h5, h6, h7⟩ := ph_setB hp
      exact .set2 c T h2 h3 h1 h4 h5 h6 h7
    · exact pop_other e hm (by simp [Op.worker?]; exact fun h => hj h.symm) (hP j) (setW_ne _ _ hj)
  | @setE i f ops e =>
    have hm := mode_start_of hM e (by simp) (by simp)
    have hnw : ∀ j, ¬ waking s j := fun j => not_waking_of_mode (by simp [hm])
    refine ⟨⟨by simp [hm], by simp [hm]⟩, fun j => ?_⟩
    by_cases hj : j = i
    · subst hj
      have hp := hP j
      unfold PhS at hp ⊢
      rw [rem_of_not_waking (hnw j), e, proj_cons_same rfl] at hp
      rw [rem_of_not_waking (not_waking_of_mode (by simp [hm]))]
      simp only [setW_self]
      obtain ⟨c, T, h1, h2, h3, h4, h5, h6, h7, h8⟩ := ph_setE hp
      exact .set3 c T h2 h3 h4 h1 h5 h6 h7 h8
    · exact pop_other e hm (by simp [Op.worker?]; exact fun h => hj h.symm) (hP j) (setW_ne _ _ hj)
  | @postOk i ops e hm hr =>
    have hnw : ∀ j, ¬ waking s j := fun j => not_waking_of_mode (by simp [hm])
    refine ⟨⟨fun _ => ⟨i, by simp [e]⟩, by simp⟩, fun j => ?_⟩
    by_cases hj : j = i
    · subst hj
      have hp := hP j
      unfold PhS at hp ⊢
      rw [rem_of_not_waking (hnw j), e, proj_cons_same rfl] at hp
      obtain ⟨c, T, h1, h2, h3, h4, h5, h6, h7, h8⟩ := ph_post hp
      have hwk : waking { s with mode := .wake, w := setW s.w j { s.w j with ready := true } } j := ⟨rfl, by simp [e]⟩
      unfold remOps
      rw [if_pos hwk]
      simp only [setW_self, e, proj_cons_same (show (Op.post j).worker? = some j from rfl), List.tail_cons]
      exact .posted c T h1 h2 h3 h4 rfl h6 h7 (fun _ => ⟨rfl, rfl⟩) h8
    · refine ph_other (hP j) ?_ (fun hc => absurd hc (hnw j)) ?_ (setW_ne _ _ hj) rfl
      · unfold remOps
        rw [if_neg (hnw j), if_neg]
        rintro ⟨_, h⟩; simp [e] at h; exact hj h.symm
      · intro hc; exact absurd hc.1 (by simp)
  | @postFail i ops e hm hr =>
    have hp := hP i
    unfold PhS at hp
    rw [rem_of_not_waking (not_waking_of_mode (by simp [hm])), e, proj_cons_same rfl] at hp
    obtain ⟨_, _, _, _, _, _, h, _⟩ := ph_post hp
    rw [hr] at h; cases h
  | @postWake i ops e hm =>
    refine ⟨⟨by simp, by simp⟩, fun j => ?_⟩
    by_cases hj : j = i
    · subst hj
      have hp := hP j
      have hwk : waking s j := ⟨hm, by simp [e]⟩
      unfold PhS at hp ⊢
      unfold remOps at hp
      rw [if_pos hwk, e, proj_cons_same rfl, List.tail_cons] at hp
      rw [rem_of_not_waking (not_waking_of_mode (by simp))]
      simp only [setW_self]
      have hidle : ∀ x : W, Idle x.pc → Idle (wakeW x).pc := by
        intro x hx; unfold wakeW; split <;> simp_all [Idle]
      have hns : ∀ x : W, (wakeW x).pc ≠ .sleep := by
        intro x; unfold wakeW; split <;> simp_all
      have hfl : ∀ x : W, (wakeW x).ready = x.ready ∧ (wakeW x).done = x.done ∧ (wakeW x).f = x.f ∧ (wakeW x).b = x.b ∧ (wakeW x).e = x.e := by
        intro x; unfold wakeW; split <;> simp
      have hsame : ∀ x : W, x.pc ≠ .sleep → wakeW x = x := by intro x hx; unfold wakeW; rw [if_neg hx]
      obtain ⟨f1, f2, f3, f4, f5⟩ := hfl (s.w j)
      cases hp with
      | quiet T a b c d g => exact .quiet T a (f1.trans b) (f2.trans c) (hidle _ d) g
      | set1 c T a b d g k l => exact .set1 c T a (f3.trans b) (f1.trans d) (f2.trans g) (hidle _ k) l
      | set2 c T a b d g k l m => exact .set2 c T a (f3.trans b) (f4.trans d) (f1.trans g) (f2.trans k) (hidle _ l) m
      | set3 c T a b d g k l m o => exact .set3 c T a (f3.trans b) (f4.trans d) (f5.trans g) (f1.trans k) (f2.trans l) (hidle _ m) o
      | posted c T a b d g k l m o q =>
        exact .posted c T a (f3.trans b) (f4.trans d) (f5.trans g) (f1.trans k) (f2.trans l) (hidle _ m) (fun h => absurd h (hns _)) q
      | running c T a b d g k l m o =>
        rw [hsame _ (by rcases m with m | m | m | m <;> rw [m] <;> simp)]
        exact .running c T a b d g k l m o
      | executed T a b c d g =>
        rw [hsame _ (by rw [d]; simp)]
        exact .executed T a b c d g
      | signalled T a b c d g k => exact .signalled T a (f1.trans b) (f2.trans c) (hidle _ d) (fun h => absurd h.1 (by simp)) k
    · have hnw : ¬ waking s j := by rintro ⟨_, h⟩; simp [e] at h; exact hj h.symm
      refine ph_other (hP j) ?_ (fun hc => absurd hc hnw) ?_ (setW_ne _ _ hj) rfl
      · rw [rem_of_not_waking hnw, rem_of_not_waking (not_waking_of_mode (by simp)), e,
          proj_cons_other (by simp [Op.worker?]; exact fun h => hj h.symm)]
      · intro hc; exact absurd hc.1 (by simp)
  | @waitOk i ops e hm hd =>
    have hnw : ∀ j, ¬ waking s j := fun j => not_waking_of_mode (by simp [hm])
    refine ⟨⟨by simp [hm], by simp [hm]⟩, fun j => ?_⟩
    by_cases hj : j = i
    · subst hj
      have hp := hP j
      unfold PhS at hp ⊢
      rw [rem_of_not_waking (hnw j), e, proj_cons_same rfl] at hp
      rw [rem_of_not_waking (not_waking_of_mode (by simp [hm]))]
      simp only [setW_self]
      cases hp with
      | quiet T a => rcases blocks_head j T with h | ⟨_, _, h⟩ <;> rw [h] at a <;> simp at a
      | set1 c T a => simp at a
      | set2 c T a => simp at a
      | set3 c T a => simp at a
      | posted c T a b d g k l => rw [hd] at l; cases l
      | running c T a b d g k l => rw [hd] at l; cases l
      | executed T a b c => rw [hd] at c; cases c
      | signalled T a b c d g k =>
        simp only [List.cons.injEq, true_and] at a
        exact .quiet T a b rfl d k
    · exact pop_other e hm (by simp [Op.worker?]; exact fun h => hj h.symm) (hP j) (setW_ne _ _ hj)
  | @waitFail i ops e hm hd =>
    refine ⟨⟨by simp, fun _ => ⟨i, by simp [e]⟩⟩, fun j => ?_⟩
    refine ph_other (hP j) ?_ (fun hc => absurd hc.1 (by simp [hm])) (fun hc => absurd hc.1 (by simp)) rfl rfl
    rw [rem_of_not_waking (not_waking_of_mode (by simp)), rem_of_not_waking (not_waking_of_mode (by simp [hm]))]
  | @waitAgain i ops e hm hd =>
    refine ⟨⟨by simp, by simp⟩, fun j => ?_⟩
    refine ph_other (hP j) ?_ (fun hc => absurd hc.1 (by simp [hm])) (fun hc => absurd hc.1 (by simp)) rfl rfl
    rw [rem_of_not_waking (not_waking_of_mode (by simp)), rem_of_not_waking (not_waking_of_mode (by simp [hm]))]
  | @waitSleep i ops e hm hd =>
    refine ⟨⟨by simp, fun _ => ⟨i, by simp [e]⟩⟩, fun j => ?_⟩
    have hrem : remOps { s with mode := Mode.sleep } j = remOps s j := by
      rw [rem_of_not_waking (not_waking_of_mode (by simp)), rem_of_not_waking (not_waking_of_mode (by simp [hm]))]
    by_cases hj : j = i
    · subst hj
      have hp := hP j
      unfold PhS at hp ⊢
      rw [hrem]
      cases hp with
      | quiet T a b c d g => exact .quiet T a b c d g
      | set1 c T a b d e f g => exact .set1 c T a b d e f g
      | set2 c T a b d e f g k => exact .set2 c T a b d e f g k
      | set3 c T a b d e f g k l => exact .set3 c T a b d e f g k l
      | posted c T a b d e f g k l m => exact .posted c T a b d e f g k (fun h => absurd (l h).1 (by simp [hm])) m
      | running c T a b d e f g k l => exact .running c T a b d e f g k l
      | executed T a b c d e => exact .executed T a b c d e
      | signalled T a b c => rw [hd] at c; cases c
    · refine ph_other (hP j) hrem (fun hc => absurd hc.1 (by simp [hm])) ?_ rfl rfl
      rintro ⟨_, h⟩; simp [e] at h; exact absurd h.symm hj
  | @ret ops e =>
    have hm := mode_start_of hM e (by simp) (by simp)
    exact ⟨⟨by simp [hm], by simp [hm]⟩, fun j => pop_other e hm (by simp [Op.worker?]) (hP j) rfl⟩
  | @wTop i hi hpc =>
    refine wstep i _ ?_
    have hp := hP i
    unfold PhS at hp
    have id' : Idle Pc.cas := Or.inr (Or.inl rfl)
    cases hp with
    | quiet T a b c d g => exact .quiet T a b c id' g
    | set1 c T a b d e f g => exact .set1 c T a b d e id' g
    | set2 c T a b d e f g k => exact .set2 c T a b d e f id' k
    | set3 c T a b d e f g k l => exact .set3 c T a b d e f g id' l
    | posted c T a b d e f g k l m => exact .posted c T a b d e f g id' (by simp) m
    | running c T a b d e f g k l => rw [hpc] at k; simp at k
    | executed T a b c d e => rw [hpc] at d; cases d
    | signalled T a b c d e f => exact .signalled T a b c id' (fun h => by have := e h; rw [hpc] at this; cases this) f
  | @wCasOk i hi hpc hr =>
    refine wstep i _ ?_
    have hp := hP i
    unfold PhS at hp
    cases hp with
    | quiet T a b c d g => rw [hr] at b; cases b
    | set1 c T a b d e f g => rw [hr] at d; cases d
    | set2 c T a b d e f g k => rw [hr] at e; cases e
    | set3 c T a b d e f g k l => rw [hr] at f; cases f
    | posted c T a b d e f g k l m => exact .running c T a b d e rfl g (Or.inl rfl) m
    | running c T a b d e f g k l => rw [hpc] at k; simp at k
    | executed T a b c d e => rw [hpc] at d; cases d
    | signalled T a b c d e f => rw [hr] at b; cases b
  | @wCasFail i hi hpc hr =>
    refine wstep i _ ?_
    have hp := hP i
    unfold PhS at hp
    have id' : Idle Pc.fut := Or.inr (Or.inr (Or.inl rfl))
    cases hp with
    | quiet T a b c d g => exact .quiet T a b c id' g
    | set1 c T a b d e f g => exact .set1 c T a b d e id' g
    | set2 c T a b d e f g k => exact .set2 c T a b d e f id' k
    | set3 c T a b d e f g k l => exact .set3 c T a b d e f g id' l
    | posted c T a b d e f g k l m => rw [hr] at f; cases f
    | running c T a b d e f g k l => rw [hpc] at k; simp at k
    | executed T a b c d e => rw [hpc] at d; cases d
    | signalled T a b c d e f => exact .signalled T a b c id' (fun h => by have := e h; rw [hpc] at this; cases this) f
  | @wAgain i hi hpc hr =>
    refine wstep i _ ?_
    have hp := hP i
    unfold PhS at hp
    have id' : Idle Pc.cas := Or.inr (Or.inl rfl)
    cases hp with
    | quiet T a b c d g => exact .quiet T a b c id' g
    | set1 c T a b d e f g => exact .set1 c T a b d e id' g
    | set2 c T a b d e f g k => exact .set2 c T a b d e f id' k
    | set3 c T a b d e f g k l => exact .set3 c T a b d e f g id' l
    | posted c T a b d e f g k l m => exact .posted c T a b d e f g id' (by simp) m
    | running c T a b d e f g k l => rw [hpc] at k; simp at k
    | executed T a b c d e => rw [hpc] at d; cases d
    | signalled T a b c d e f => exact .signalled T a b c id' (fun h => by have := e h; rw [hpc] at this; cases this) f
  | @wSleep i hi hpc hr =>
    refine wstep i _ ?_
    have hp := hP i
    unfold PhS at hp
    have id' : Idle Pc.sleep := Or.inr (Or.inr (Or.inr (Or.inl rfl)))
    cases hp with
    | quiet T a b c d g => exact .quiet T a b c id' g
    | set1 c T a b d e f g => exact .set1 c T a b d e id' g
    | set2 c T a b d e f g k => exact .set2 c T a b d e f id' k
    | set3 c T a b d e f g k l => exact .set3 c T a b d e f g id' l
    | posted c T a b d e f g k l m => rw [hr] at f; cases f
    | running c T a b d e f g k l => rw [hpc] at k; simp at k
    | executed T a b c d e => rw [hpc] at d; cases d
    | signalled T a b c d e f => exact .signalled T a b c id' (fun h => by have := e h; rw [hpc] at this; cases this) f
  | @wLdF i hi hpc =>
    refine wstep i _ ?_
    have hp := hP i
    unfold PhS at hp
    have nid : ¬ Idle (s.w i).pc := by rw [hpc]; simp [Idle]
    cases hp with
    | quiet T a b c d g => exact absurd d nid
    | set1 c T a b d e f g => exact absurd f nid
    | set2 c T a b d e f g k => exact absurd g nid
    | set3 c T a b d e f g k l => exact absurd k nid
    | posted c T a b d e f g k l m => exact absurd k nid
    | running c T a b d e f g k l => exact .running c T a b d e f g (Or.inr (Or.inl (by simp [b]))) l
    | executed T a b c d e => rw [hpc] at d; cases d
    | signalled T a b c d e f => exact absurd d nid
  | @wLdB i v hi hpc =>
    refine wstep i _ ?_
    have hp := hP i
    unfold PhS at hp
    have nid : ¬ Idle (s.w i).pc := by rw [hpc]; simp [Idle]
    cases hp with
    | quiet T a b c d g => exact absurd d nid
    | set1 c T a b d e f g => exact absurd f nid
    | set2 c T a b d e f g k => exact absurd g nid
    | set3 c T a b d e f g k l => exact absurd k nid
    | posted c T a b d e f g k l m => exact absurd k nid
    | running c T a b d e f g k l =>
      rw [hpc] at k
      simp only [reduceCtorEq, Pc.ldB.injEq, false_or, or_false] at k
      exact .running c T a b d e f g (Or.inr (Or.inr (Or.inl (by simp [d, k])))) l
    | executed T a b c d e => rw [hpc] at d; cases d
    | signalled T a b c d e f => exact absurd d nid
  | @wLdE i v v' hi hpc =>
    refine wstep i _ ?_
    have hp := hP i
    unfold PhS at hp
    have nid : ¬ Idle (s.w i).pc := by rw [hpc]; simp [Idle]
    cases hp with
    | quiet T a b c d g => exact absurd d nid
    | set1 c T a b d e f g => exact absurd f nid
    | set2 c T a b d e f g k => exact absurd g nid
    | set3 c T a b d e f g k l => exact absurd k nid
    | posted c T a b d e f g k l m => exact absurd k nid
    | running c T a b d e f g k l =>
      rw [hpc] at k
      simp only [reduceCtorEq, Pc.ldE.injEq, false_or, or_false] at k
      exact .running c T a b d e f g (Or.inr (Or.inr (Or.inr (by simp [e, k.1, k.2])))) l
    | executed T a b c d e => rw [hpc] at d; cases d
    | signalled T a b c d e f => exact absurd d nid
  | @wExec i ck hi hpc =>
    refine ⟨hM, fun j => ?_⟩
    by_cases hj : j = i
    · subst hj
      have hlog : logOf j (s.log ++ [(j, ck)]) = logOf j s.log ++ [ck] := by simp [logOf]
      have hp := hP j
      unfold PhS at hp ⊢
      simp only [setW_self, hlog]
      have nid : ¬ Idle (s.w j).pc := by rw [hpc]; simp [Idle]
      cases hp with
      | quiet T a b c d g => exact absurd d nid
      | set1 c T a b d e f g => exact absurd f nid
      | set2 c T a b d e f g k => exact absurd g nid
      | set3 c T a b d e f g k l => exact absurd k nid
      | posted c T a b d e f g k l m => exact absurd k nid
      | running c T a b d e f g k l =>
        rw [hpc] at k
        simp only [reduceCtorEq, Pc.exec.injEq, false_or] at k
        subst k
        exact .executed T a f g rfl (by simpa using l)
      | executed T a b c d e => rw [hpc] at d; cases d
      | signalled T a b c d e f => exact absurd d nid
    · refine ph_other (hP j) rfl id id (setW_ne _ _ hj) ?_
      simp [logOf, List.filter_append, show ¬ i = j from fun h => hj h.symm]
  | @wPostOk i hi hpc hd =>
    refine wstep i _ ?_
    have hp := hP i
    unfold PhS at hp
    have nid : ¬ Idle (s.w i).pc := by rw [hpc]; simp [Idle]
    cases hp with
    | quiet T a b c d g => exact absurd d nid
    | set1 c T a b d e f g => exact absurd f nid
    | set2 c T a b d e f g k => exact absurd g nid
    | set3 c T a b d e f g k l => exact absurd k nid
    | posted c T a b d e f g k l m => exact absurd k nid
    | running c T a b d e f g k l => rw [hpc] at k; simp at k
    | executed T a b c d e => exact .signalled T a b rfl (by simp [Idle]) (fun _ => rfl) e
    | signalled T a b c d e f => exact absurd d nid
  | @wPostFail i hi hpc hd =>
    have hp := hP i
    unfold PhS at hp
    have nid : ¬ Idle (s.w i).pc := by rw [hpc]; simp [Idle]
    exfalso
    cases hp with
    | quiet T a b c d g => exact absurd d nid
    | set1 c T a b d e f g => exact absurd f nid
    | set2 c T a b d e f g k => exact absurd g nid
    | set3 c T a b d e f g k l => exact absurd k nid
    | posted c T a b d e f g k l m => exact absurd k nid
    | running c T a b d e f g k l => rw [hpc] at k; simp at k
    | executed T a b c d e => rw [hd] at c; cases c
    | signalled T a b c d e f => exact absurd d nid
  | @wWake i hi hpc =>
    have hmode : wakeMain s i ≠ .wake ∨ wakeMain s i = s.mode := by
      unfold wakeMain; split <;> simp
    have hmode' : ∀ j, msleep { s with mode := wakeMain s i, w := setW s.w i { s.w i with pc := .top } } j → j ≠ i ∧ msleep s j := by
      rintro j ⟨h1, h2⟩
      simp only at h1 h2
      unfold wakeMain at h1
      split at h1
      · simp at h1
      · rename_i hn
        refine ⟨?_, h1, h2⟩
        rintro rfl; exact hn ⟨h1, h2⟩
    have hwk : ∀ j, waking { s with mode := wakeMain s i, w := setW s.w i { s.w i with pc := .top } } j ↔ waking s j := by
      intro j
      unfold waking
      simp only
      unfold wakeMain
      split
      · rename_i hc; simp [hc.1]
      · rfl
    have hrem : ∀ j, remOps { s with mode := wakeMain s i, w := setW s.w i { s.w i with pc := .top } } j = remOps s j := by
      intro j
      unfold remOps
      by_cases h : waking s j
      · rw [if_pos h, if_pos ((hwk j).2 h)]
      · rw [if_neg h, if_neg (fun h' => h ((hwk j).1 h'))]
    refine ⟨⟨?_, ?_⟩, fun j => ?_⟩
    · intro h
      simp only at h
      unfold wakeMain at h
      split at h
      · cases h
      · exact hM.1 h
    · intro h
      simp only at h
      unfold wakeMain at h
      split at h
      · simp at h
      · exact hM.2 h
    by_cases hj : j = i
    · subst hj
      have hp := hP j
      unfold PhS at hp ⊢
      rw [hrem]
      simp only [setW_self]
      have id' : Idle Pc.top := Or.inl rfl
      cases hp with
      | quiet T a b c d g => exact .quiet T a b c id' g
      | set1 c T a b d e f g => exact .set1 c T a b d e id' g
      | set2 c T a b d e f g k => exact .set2 c T a b d e f id' k
      | set3 c T a b d e f g k l => exact .set3 c T a b d e f g id' l
      | posted c T a b d e f g k l m => exact .posted c T a b d e f g id' (by simp) m
      | running c T a b d e f g k l => rw [hpc] at k; simp at k
      | executed T a b c d e => rw [hpc] at d; cases d
      | signalled T a b c d e f => exact .signalled T a b c id' (fun h => absurd rfl (hmode' j h).1) f
    · exact ph_other (hP j) (hrem j) (hwk j).2 (fun h => (hmode' j h).2) (setW_ne _ _ hj) rfl

theorem inv_spurious {n : Nat} {calls : List Call} {s t : S} (hI : Inv calls s) (h : Spurious n s t) : Inv calls t := by
  obtain ⟨hM, hP⟩ := hI
  cases h with
  | main hm =>
    refine ⟨⟨by simp, by simp⟩, fun j => ?_⟩
    refine ph_other (hP j) ?_ (fun hc => absurd hc.1 (by simp [hm])) (fun hc => absurd hc.1 (by simp)) rfl rfl
    rw [rem_of_not_waking (not_waking_of_mode (by simp)), rem_of_not_waking (not_waking_of_mode (by simp [hm]))]
  | @worker i hi hpc =>
    refine ⟨hM, fun j => ?_⟩
    by_cases hj : j = i
    · subst hj
      have hp := hP j
      unfold PhS at hp ⊢
      simp only [setW_self]
      have id' : Idle Pc.cas := Or.inr (Or.inl rfl)
      show Ph j _ (remOps s j) (waking s j) (msleep s j) _ _
      cases hp with
      | quiet T a b c d g => exact .quiet T a b c id' g
      | set1 c T a b d e f g => exact .set1 c T a b d e id' g
      | set2 c T a b d e f g k => exact .set2 c T a b d e f id' k
      | set3 c T a b d e f g k l => exact .set3 c T a b d e f g id' l
      | posted c T a b d e f g k l m => exact .posted c T a b d e f g id' (by simp) m
      | running c T a b d e f g k l => rw [hpc] at k; simp at k
      | executed T a b c d e => rw [hpc] at d; cases d
      | signalled T a b c d e f => exact .signalled T a b c id' (fun h => by have := e h; rw [hpc] at this; cases this) f
    · exact ph_other (hP j) rfl id id (setW_ne _ _ hj) rfl

/-! ## initial state -/

theorem proj_append (i : Nat) (a b : List Op) : proj i (a ++ b) = proj i a ++ proj i b := by simp [proj]

theorem proj_compile {i : Nat} {c : Call} (hn : (c.map Prod.fst).Nodup) : proj i (compile c) = blocks i (logOf i c) := by
  have h1 : ∀ c : Call, proj i (c.flatMap launch) = (logOf i c).flatMap fun k => [.setF i k.f, .setB i k.b, .setE i k.e, .post i] := by
    intro c
    induction c with
    | nil => rfl
    | cons p c ih =>
      rw [List.flatMap_cons, proj_append, ih]
      by_cases hp : p.1 = i
      · subst hp
        have : logOf p.1 (p :: c) = p.2 :: logOf p.1 c := by simp [logOf]
        rw [this, List.flatMap_cons]
        simp [proj, launch, Op.worker?]
      · have : logOf i (p :: c) = logOf i c := by simp [logOf, hp]
        rw [this]
        simp [proj, launch, Op.worker?, hp]
  have h2 : ∀ c : Call, proj i (c.map fun p => Op.wait p.1) = (logOf i c).map fun _ => Op.wait i := by
    intro c
    induction c with
    | nil => rfl
    | cons p c ih =>
      rw [List.map_cons]
      by_cases hp : p.1 = i
      · subst hp
        have : logOf p.1 (p :: c) = p.2 :: logOf p.1 c := by simp [logOf]
        rw [this, proj_cons_same rfl, ih]; rfl
      · have : logOf i (p :: c) = logOf i c := by simp [logOf, hp]
        rw [this, proj_cons_other (by simp [Op.worker?, hp]), ih]
  have h3 : (logOf i c).length ≤ 1 := by
    unfold logOf
    rw [List.length_map]
    have : (c.filter fun p => decide (p.1 = i)).length = (c.map Prod.fst).count i := by
      rw [List.count, List.countP_map, List.countP_eq_length_filter]
      congr 1
    rw [this]
    exact List.nodup_iff_count_le_one.1 hn i
  unfold compile
  rw [proj_append, proj_append, h1, h2]
  have h4 : proj i [Op.ret] = [] := rfl
  rw [h4]
  match hl : logOf i c, h3 with
  | [], _ => rfl
  | [k], _ => rfl

theorem proj_calls {i : Nat} : ∀ (calls : List Call), (∀ c ∈ calls, (c.map Prod.fst).Nodup) →
    proj i (calls.flatMap compile) = blocks i (tasksOf i calls)
  | [], _ => rfl
  | c :: calls, h => by
    rw [List.flatMap_cons, proj_append, proj_compile (h c (by simp)), proj_calls calls (fun d hd => h d (by simp [hd]))]
    simp [tasksOf, logOf, blocks]

theorem inv_init (calls : List Call) (h : ∀ c ∈ calls, (c.map Prod.fst).Nodup) : Inv calls (init calls) := by
  refine ⟨⟨by simp [init], by simp [init]⟩, fun i => ?_⟩
  unfold PhS
  rw [rem_of_not_waking (not_waking_of_mode (by simp [init]))]
  exact .quiet (tasksOf i calls) (proj_calls calls h) rfl rfl (Or.inl rfl) (by simp [init, logOf])

theorem reach_inv {n : Nat} {calls : List Call} (hc : ∀ c ∈ calls, (c.map Prod.fst).Nodup) {s : S} (h : Reach n calls s) : Inv calls s := by
  induction h with
  | init => exact inv_init calls hc
  | step _ hs ih => exact inv_step ih hs
  | spurious _ hs ih => exact inv_spurious ih hs

end Cmmc.Futex
