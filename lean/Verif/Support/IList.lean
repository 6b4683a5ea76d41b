import Mathlib.Data.List.Basic
import Mathlib.Data.List.Nodup
/-!
# Model of `IntrusiveList` (cmmc/Support/IntrusiveList.hpp:20-231)

Memory maps addresses to list nodes; address 0 is `nullptr` and never mapped, a destroyed node is unmapped, and every access to
an unmapped address is undefined behaviour (`none`). Failed `assert`s (debug build) are `none` as well. `T* ptr` of a node is the
identity of its item, so items are identified with node addresses. Loops are `partial_fixpoint` definitions: non-termination is
`none` too, so a theorem giving `some` includes termination.
Not modelled: the `int32_t` overflow of `mCount` beyond 2^31-1 nodes is `none` in `insert`.
-/
namespace Cmmc.IList

/-- `IntrusiveListNode` (IntrusiveList.hpp:29-37), `parent` as in debug builds -/
structure Cell where
  prev : Nat
  next : Nat
  parent : Nat
deriving DecidableEq, Repr

abbrev Mem := Nat → Option Cell

/-- `IntrusiveList` (IntrusiveList.hpp:128-131): the addresses of the two sentinels, of the list object, and the count -/
structure LObj where
  head : Nat
  tail : Nat
  this : Nat
  count : Int
deriving DecidableEq, Repr

def setNext (m : Mem) (a v : Nat) : Mem := fun b => if b = a then (m a).map fun c => { c with next := v } else m b
def setPrev (m : Mem) (a v : Nat) : Mem := fun b => if b = a then (m a).map fun c => { c with prev := v } else m b
def setCell (m : Mem) (a : Nat) (c : Cell) : Mem := fun b => if b = a then some c else m b
def free (m : Mem) (a : Nat) : Mem := fun b => if b = a then none else m b

/-- `erase(node, destroy)` (IntrusiveList.hpp:151-162) -/
def erase (m : Mem) (L : LObj) (node : Nat) (destroy : Bool) : Option (Mem × LObj) :=
  match m node with
  | none => none
  | some c =>
    if c.parent ≠ L.this then none else
    if (m c.prev).isNone then none else
    let m1 := setNext m c.prev c.next
    match m1 node with
    | none => none
    | some c1 =>
      if (m1 c1.next).isNone then none else
      let m2 := setPrev m1 c1.next c1.prev
      let m3 := if destroy then free m2 node else m2
      if L.count - 1 < 0 then none else some (m3, { L with count := L.count - 1 })

/-- the loop of `erase(beg, end)` (IntrusiveList.hpp:165-170), `prev` fixed -/
def eraseLoop (m : Mem) (L : LObj) (prev last : Nat) : Option (Mem × LObj) :=
  match m last with
  | none => none
  | some c =>
    if c.prev = prev then some (m, L)
    else do
      let r ← erase m L c.prev true
      eraseLoop r.1 r.2 prev last
partial_fixpoint

/-- `erase(beg, end)` (IntrusiveList.hpp:163-171) -/
def eraseRange (m : Mem) (L : LObj) (beg last : Nat) : Option (Mem × LObj) :=
  (m beg).bind fun c => eraseLoop m L c.prev last

/-- `insert(pos, node)` (IntrusiveList.hpp:172-181) -/
def insert (m : Mem) (L : LObj) (pos node : Nat) : Option (Mem × LObj) :=
  match m node, m pos with
  | some _, some pc =>
    let m1 := setCell m node ⟨pc.prev, pos, L.this⟩
    match m1 pos with
    | none => none
    | some pc1 =>
      if (m1 pc1.prev).isNone then none else
      let m2 := setNext m1 pc1.prev node
      let m3 := setPrev m2 pos node
      if L.count + 1 > 2147483647 then none else some (m3, { L with count := L.count + 1 })
  | _, _ => none

/-- `begin()` (IntrusiveList.hpp:185-187) -/
def beginP (m : Mem) (L : LObj) : Option Nat := (m L.head).map Cell.next
/-- `end()` (IntrusiveList.hpp:188-190) -/
def endP (L : LObj) : Nat := L.tail
/-- `clear()` (IntrusiveList.hpp:142-144) -/
def clear (m : Mem) (L : LObj) : Option (Mem × LObj) := (beginP m L).bind fun b => eraseRange m L b (endP L)
/-- `front()` (IntrusiveList.hpp:198-201) -/
def front (m : Mem) (L : LObj) : Option Nat := if L.count = 0 then none else (m L.head).map Cell.next
/-- `back()` (IntrusiveList.hpp:202-205) -/
def back (m : Mem) (L : LObj) : Option Nat := if L.count = 0 then none else (m L.tail).map Cell.prev
/-- `pop_front()` (IntrusiveList.hpp:206-209) -/
def popFront (m : Mem) (L : LObj) : Option (Mem × LObj) := (front m L).bind fun n => erase m L n true
/-- `pop_back()` (IntrusiveList.hpp:210-213) -/
def popBack (m : Mem) (L : LObj) : Option (Mem × LObj) := (back m L).bind fun n => erase m L n true

/-- the loop of `remove_if` (IntrusiveList.hpp:217-223) -/
def removeLoop (p : Nat → Bool) (m : Mem) (L : LObj) (cur : Nat) : Option (Mem × LObj) :=
  if cur = L.head then some (m, L) else
  match m cur with
  | none => none
  | some c =>
    if p cur then do
      let r ← erase m L cur true
      removeLoop p r.1 r.2 c.prev
    else removeLoop p m L c.prev
partial_fixpoint

/-- `remove_if` (IntrusiveList.hpp:214-224) -/
def removeIf (p : Nat → Bool) (m : Mem) (L : LObj) : Option (Mem × LObj) :=
  (m L.tail).bind fun c => removeLoop p m L c.prev

/-- `for(auto it = begin(); it != end(); ++it)` collecting items (IntrusiveList.hpp:46-49, 185-190) -/
def walkF (m : Mem) (stop cur : Nat) : Option (List Nat) :=
  if cur = stop then some [] else
  match m cur with
  | none => none
  | some c => do
    let l ← walkF m stop c.next
    return cur :: l
partial_fixpoint
/-- reverse iteration `rbegin()`..`rend()` (IntrusiveList.hpp:86-89, 191-196) -/
def walkB (m : Mem) (stop cur : Nat) : Option (List Nat) :=
  if cur = stop then some [] else
  match m cur with
  | none => none
  | some c => do
    let l ← walkB m stop c.prev
    return cur :: l
partial_fixpoint
def items (m : Mem) (L : LObj) : Option (List Nat) := (beginP m L).bind fun b => walkF m (endP L) b
def itemsRev (m : Mem) (L : LObj) : Option (List Nat) := (m L.tail).bind fun c => walkB m L.head c.prev

/-! ## Representation -/

def nx (m : Mem) (a : Nat) : Option Nat := (m a).map Cell.next
def pv (m : Mem) (a : Nat) : Option Nat := (m a).map Cell.prev
def pr (m : Mem) (a : Nat) : Option Nat := (m a).map Cell.parent

def Chain (m : Mem) : List Nat → Prop
  | a :: b :: l => nx m a = some b ∧ pv m b = some a ∧ Chain m (b :: l)
  | _ => True

/-- the nodes of the list including sentinels -/
def full (L : LObj) (xs : List Nat) : List Nat := L.head :: (xs ++ [L.tail])

structure Rep (m : Mem) (L : LObj) (xs : List Nat) : Prop where
  nodup : (full L xs).Nodup
  chain : Chain m (full L xs)
  alive : ∀ a ∈ full L xs, (m a).isSome
  par : ∀ a ∈ xs, pr m a = some L.this
  count : L.count = xs.length

theorem chain_congr {m m' : Mem} : ∀ {l : List Nat}, (∀ a ∈ l.dropLast, nx m' a = nx m a) → (∀ a ∈ l.tail, pv m' a = pv m a) →
    Chain m l → Chain m' l
  | [], _, _, _ => trivial
  | [_], _, _, _ => trivial
  | a :: b :: l, h1, h2, h => by
    obtain ⟨e1, e2, e3⟩ := h
    refine ⟨?_, ?_, ?_⟩
    · rw [h1 a (by simp [List.dropLast]), e1]
    · rw [h2 b (by simp), e2]
    · refine chain_congr ?_ ?_ e3
      · intro x hx; exact h1 x (by simp only [List.dropLast]; exact List.mem_cons_of_mem _ hx)
      · intro x hx; exact h2 x (by simp only [List.tail_cons] at *; exact List.mem_cons_of_mem _ hx)

theorem chain_append {m : Mem} {a : Nat} {l2 : List Nat} : ∀ {l1 : List Nat},
    Chain m (l1 ++ a :: l2) ↔ Chain m (l1 ++ [a]) ∧ Chain m (a :: l2)
  | [] => by simp [Chain]
  | [x] => by simp [Chain, and_assoc]
  | x :: y :: l1 => by
    have := @chain_append m a l2 (y :: l1)
    simp only [List.cons_append, Chain] at *
    rw [this]
    simp [and_assoc]

section upd
variable {m : Mem} {a b v : Nat} {c : Cell}
theorem nx_setNext : nx (setNext m a v) b = if b = a then (nx m a).map fun _ => v else nx m b := by
  unfold nx setNext; split <;> simp_all [Option.map_map]
  rfl
theorem nx_setPrev : nx (setPrev m a v) b = nx m b := by
  unfold nx setPrev; split
  · rename_i h; subst h; simp only [Option.map_map]; rfl
  · rfl
theorem pv_setPrev : pv (setPrev m a v) b = if b = a then (pv m a).map fun _ => v else pv m b := by
  unfold pv setPrev; split <;> simp_all [Option.map_map]
  rfl
theorem pv_setNext : pv (setNext m a v) b = pv m b := by
  unfold pv setNext; split
  · rename_i h; subst h; simp only [Option.map_map]; rfl
  · rfl
theorem pr_setPrev : pr (setPrev m a v) b = pr m b := by
  unfold pr setPrev; split
  · rename_i h; subst h; simp only [Option.map_map]; rfl
  · rfl
theorem pr_setNext : pr (setNext m a v) b = pr m b := by
  unfold pr setNext; split
  · rename_i h; subst h; simp only [Option.map_map]; rfl
  · rfl
theorem isSome_setNext : (setNext m a v b).isSome = (m b).isSome := by
  unfold setNext; split
  · rename_i h; subst h; simp
  · rfl
theorem isSome_setPrev : (setPrev m a v b).isSome = (m b).isSome := by
  unfold setPrev; split
  · rename_i h; subst h; simp
  · rfl
theorem free_ne (h : b ≠ a) : free m a b = m b := by unfold free; rw [if_neg h]
theorem setNext_ne (h : b ≠ a) : setNext m a v b = m b := by unfold setNext; rw [if_neg h]
theorem setPrev_ne (h : b ≠ a) : setPrev m a v b = m b := by unfold setPrev; rw [if_neg h]
theorem setCell_ne (h : b ≠ a) : setCell m a c b = m b := by unfold setCell; rw [if_neg h]
end upd

/-- `Rep` only looks at the nodes of the list -/
theorem Rep.congr {m m' : Mem} {L : LObj} {xs : List Nat} (h : Rep m L xs) (e : ∀ a ∈ full L xs, m' a = m a) : Rep m' L xs := by
  refine ⟨h.nodup, chain_congr ?_ ?_ h.chain, ?_, ?_, h.count⟩
  · intro a ha; unfold nx; rw [e a (List.dropLast_subset _ ha)]
  · intro a ha; unfold pv; rw [e a (List.mem_of_mem_tail ha)]
  · intro a ha; rw [e a ha]; exact h.alive a ha
  · intro a ha; unfold pr; rw [e a (by simp [full, ha])]; exact h.par a ha

theorem full_split (L : LObj) (xs ys : List Nat) :
    ∃ A p n B, L.head :: xs = A ++ [p] ∧ ys ++ [L.tail] = n :: B ∧ ∀ zs, full L (xs ++ zs ++ ys) = A ++ p :: (zs ++ n :: B) := by
  have hA : L.head :: xs ≠ [] := by simp
  cases hy : ys ++ [L.tail] with
  | nil => simp at hy
  | cons n B =>
    refine ⟨(L.head :: xs).dropLast, (L.head :: xs).getLast hA, n, B, (List.dropLast_append_getLast hA).symm, rfl, ?_⟩
    intro zs
    have h1 : (L.head :: xs).dropLast ++ (L.head :: xs).getLast hA :: (zs ++ n :: B)
        = ((L.head :: xs).dropLast ++ [(L.head :: xs).getLast hA]) ++ (zs ++ n :: B) := by simp
    rw [h1, List.dropLast_append_getLast hA, ← hy]
    simp [full]

theorem isNone_false {α : Type} {o : Option α} (h : o.isSome = true) : o.isNone = false := by cases o <;> simp_all

theorem erase_spec {m : Mem} {L : LObj} {xs ys : List Nat} {x : Nat} (h : Rep m L (xs ++ [x] ++ ys)) (d : Bool) :
    ∃ m', erase m L x d = some (m', { L with count := L.count - 1 }) ∧ Rep m' { L with count := L.count - 1 } (xs ++ ys) ∧
      (∀ a, a ∉ full L (xs ++ [x] ++ ys) → m' a = m a) ∧ (d = true → m' x = none) ∧ (d = false → m' x = m x) := by
  obtain ⟨A, p, n, B, eA, eB, ef⟩ := full_split L xs ys
  have e1 := ef [x]
  have e0 := ef []
  simp only [List.append_nil, List.nil_append, List.singleton_append, List.cons_append] at e1 e0
  have hx1 : xs ++ [x] ++ ys = xs ++ x :: ys := by simp
  rw [hx1] at h e1 ⊢
  have e1' : full L (xs ++ x :: ys) = A ++ p :: x :: n :: B := e1
  have hnd := h.nodup
  rw [e1'] at hnd
  have hch := h.chain
  rw [e1', chain_append] at hch
  obtain ⟨hc1, hc2, hc3, hc4, hc5, hc6⟩ := hch
  have hal : ∀ a ∈ A ++ p :: x :: n :: B, (m a).isSome := by rw [← e1']; exact h.alive
  have hndr : (A ++ [p, x, n] ++ B).Nodup := by simpa using hnd
  have hpx : p ≠ x := by
    have := (List.nodup_append.mp hnd).2.1
    simp at this; tauto
  have hpn : p ≠ n := by
    have := (List.nodup_append.mp hnd).2.1
    simp at this; tauto
  have hxn : x ≠ n := by
    have := (List.nodup_append.mp hnd).2.1
    simp at this; tauto
  have hAx : ∀ a ∈ A, a ≠ p ∧ a ≠ x ∧ a ≠ n := by
    intro a ha
    have := (List.nodup_append.mp hnd).2.2 a ha
    exact ⟨this p (by simp), this x (by simp), this n (by simp)⟩
  have hBx : ∀ a ∈ B, a ≠ p ∧ a ≠ x ∧ a ≠ n := by
    intro a ha
    have := (List.nodup_append.mp hnd).2.1
    simp only [List.nodup_cons, List.mem_cons, not_or] at this
    refine ⟨?_, ?_, ?_⟩ <;> rintro rfl <;> tauto
  obtain ⟨cx, hcx⟩ := Option.isSome_iff_exists.mp (hal x (by simp))
  have hprev : cx.prev = p := by have := hc3; unfold pv at this; rw [hcx] at this; simpa using this
  have hnext : cx.next = n := by have := hc4; unfold nx at this; rw [hcx] at this; simpa using this
  have hpar : cx.parent = L.this := by
    have := h.par x (by simp); unfold pr at this; rw [hcx] at this; simpa using this
  have hcount : ¬ (L.count - 1 < 0) := by rw [h.count]; simp only [List.length_append, List.length_cons]; omega
  have hpS := hal p (by simp)
  have hnS := hal n (by simp)
  refine ⟨if d then free (setPrev (setNext m p n) n p) x else setPrev (setNext m p n) n p, ?_, ?_, ?_, ?_, ?_⟩
  · unfold erase
    rw [hcx]
    dsimp only
    rw [if_neg (by simp [hpar]), hprev, if_neg (by simp [isNone_false hpS]), hnext, setNext_ne hpx.symm, hcx]
    dsimp only
    rw [hnext, hprev, if_neg (by rw [isNone_false (by rw [isSome_setNext]; exact hnS)]; simp), if_neg hcount]
  · set m' := setPrev (setNext m p n) n p with hm'
    have hR : Rep m' { L with count := L.count - 1 } (xs ++ ys) := by
      refine ⟨?_, ?_, ?_, ?_, ?_⟩
      · show (full L (xs ++ ys)).Nodup
        rw [e0]
        simp only [List.nodup_append, List.nodup_cons, List.mem_cons, not_or] at hnd ⊢
        refine ⟨hnd.1, ⟨⟨hpn, hnd.2.1.1.2.2⟩, hnd.2.1.2.2⟩, ?_⟩
        intro a ha b hb
        exact hnd.2.2 a ha b (by tauto)
      · show Chain m' (full L (xs ++ ys))
        rw [e0, chain_append]
        refine ⟨chain_congr ?_ ?_ hc1, ?_, ?_, chain_congr ?_ ?_ hc6⟩
        · intro a ha
          simp only [List.dropLast_concat] at ha
          rw [hm', nx_setPrev, nx_setNext, if_neg (hAx a ha).1]
        · intro a ha
          have ha' := List.mem_of_mem_tail ha
          have : a ≠ n := by
            rcases List.mem_append.mp ha' with h | h
            · exact (hAx a h).2.2
            · simp only [List.mem_singleton] at h; subst h; exact hpn
          rw [hm', pv_setPrev, if_neg this, pv_setNext]
        · rw [hm', nx_setPrev, nx_setNext, if_pos rfl, hc2]; rfl
        · rw [hm', pv_setPrev, if_pos rfl, pv_setNext, hc5]; rfl
        · intro a ha
          have ha' := List.dropLast_subset _ ha
          have : a ≠ p := by
            rcases List.mem_cons.mp ha' with h | h
            · subst h; exact hpn.symm
            · exact (hBx a h).1
          rw [hm', nx_setPrev, nx_setNext, if_neg this]
        · intro a ha
          rw [hm', pv_setPrev, if_neg (hBx a ha).2.2, pv_setNext]
      · intro a ha
        have ha : a ∈ full L (xs ++ ys) := ha
        rw [e0] at ha
        rw [hm', isSome_setPrev, isSome_setNext]
        apply hal
        simp only [List.mem_append, List.mem_cons] at ha ⊢
        tauto
      · intro a ha
        rw [hm', pr_setPrev, pr_setNext]
        exact h.par a (by simp only [List.mem_append, List.mem_cons] at ha ⊢; tauto)
      · show L.count - 1 = _
        rw [h.count]; simp only [List.length_append, List.length_cons]; omega
    cases d
    · exact hR
    · refine hR.congr ?_
      intro a ha
      have ha : a ∈ full L (xs ++ ys) := ha
      rw [e0] at ha
      apply free_ne
      rintro rfl
      rcases List.mem_append.mp ha with h | h
      · exact (hAx a h).2.1 rfl
      · rcases List.mem_cons.mp h with h | h
        · exact hpx h.symm
        · rcases List.mem_cons.mp h with h | h
          · exact hxn h
          · exact (hBx a h).2.1 rfl
  · intro a ha
    rw [e1'] at ha
    simp only [List.mem_append, List.mem_cons, not_or] at ha
    cases d
    · simp only [Bool.false_eq_true, if_false]
      rw [setPrev_ne ha.2.2.2.1, setNext_ne ha.2.1]
    · simp only [if_true]
      rw [free_ne ha.2.2.1, setPrev_ne ha.2.2.2.1, setNext_ne ha.2.1]
  · rintro rfl; simp [free]
  · rintro rfl
    simp only [Bool.false_eq_true, if_false]
    rw [setPrev_ne hxn, setNext_ne hpx.symm]

theorem insert_spec {m : Mem} {L : LObj} {xs ys : List Nat} {x : Nat} (h : Rep m L (xs ++ ys)) (hx : (m x).isSome)
    (hnx : x ∉ full L (xs ++ ys)) (hlen : (xs ++ ys).length < 2147483647) :
    ∃ m', insert m L ((ys ++ [L.tail]).head (by simp)) x = some (m', { L with count := L.count + 1 }) ∧
      Rep m' { L with count := L.count + 1 } (xs ++ x :: ys) ∧
      (∀ a, a ∉ full L (xs ++ x :: ys) → m' a = m a) ∧ (m' x).isSome := by
  obtain ⟨A, p, n, B, eA, eB, ef⟩ := full_split L xs ys
  have e1 := ef [x]
  have e0 := ef []
  simp only [List.append_nil, List.nil_append, List.singleton_append, List.append_assoc] at e1 e0
  have hpos : (ys ++ [L.tail]).head (by simp) = n := by simp [eB]
  rw [hpos]
  have hnd := h.nodup
  have hch := h.chain
  have hal := h.alive
  rw [e0] at hnd hch hnx hal
  rw [chain_append] at hch
  obtain ⟨hc1, hc2, hc3, hc4⟩ := hch
  simp only [List.mem_append, List.mem_cons, not_or] at hnx
  obtain ⟨hxA, hxp, hxn, hxB⟩ := hnx
  have hpn : p ≠ n := by
    have := (List.nodup_append.mp hnd).2.1
    simp at this; tauto
  have hAx : ∀ a ∈ A, a ≠ p ∧ a ≠ n := by
    intro a ha
    have := (List.nodup_append.mp hnd).2.2 a ha
    exact ⟨this p (by simp), this n (by simp)⟩
  have hBx : ∀ a ∈ B, a ≠ p ∧ a ≠ n := by
    intro a ha
    have := (List.nodup_append.mp hnd).2.1
    simp only [List.nodup_cons, List.mem_cons, not_or] at this
    refine ⟨?_, ?_⟩ <;> rintro rfl <;> tauto
  obtain ⟨cx, hcx⟩ := Option.isSome_iff_exists.mp hx
  obtain ⟨cn, hcn⟩ := Option.isSome_iff_exists.mp (hal n (by simp))
  have hprev : cn.prev = p := by have := hc3; unfold pv at this; rw [hcn] at this; simpa using this
  have hcount : ¬ (L.count + 1 > 2147483647) := by rw [h.count]; omega
  have hpS := hal p (by simp)
  set c0 : Cell := ⟨p, n, L.this⟩ with hc0
  refine ⟨setPrev (setNext (setCell m x c0) p x) n x, ?_, ?_, ?_, ?_⟩
  · unfold insert
    rw [hcx, hcn]
    dsimp only
    rw [hprev, setCell_ne (Ne.symm hxn), hcn]
    dsimp only
    rw [hprev, setCell_ne (Ne.symm hxp), if_neg (by simp [isNone_false hpS]), if_neg hcount]
  · have hx' : ∀ a, a ≠ x → nx (setCell m x c0) a = nx m a ∧ pv (setCell m x c0) a = pv m a ∧
        pr (setCell m x c0) a = pr m a := by
      intro a ha; unfold nx pv pr; rw [setCell_ne ha]; exact ⟨rfl, rfl, rfl⟩
    have hself : setCell m x c0 x = some c0 := by simp [setCell]
    refine ⟨?_, ?_, ?_, ?_, ?_⟩
    · show (full L (xs ++ x :: ys)).Nodup
      rw [e1]
      simp only [List.nodup_append, List.nodup_cons, List.mem_cons, not_or] at hnd ⊢
      refine ⟨hnd.1, ⟨⟨Ne.symm hxp, hpn, hnd.2.1.1.2⟩, ⟨hxn, hxB⟩, hnd.2.1.2⟩, ?_⟩
      intro a ha b hb
      rcases hb with rfl | rfl | rfl | hb
      · exact (hAx a ha).1
      · rintro rfl; exact hxA ha
      · exact (hAx a ha).2
      · exact hnd.2.2 a ha b (by tauto)
    · show Chain _ (full L (xs ++ x :: ys))
      rw [e1, chain_append]
      refine ⟨chain_congr ?_ ?_ hc1, ?_, ?_, ?_, ?_, chain_congr ?_ ?_ hc4⟩
      · intro a ha
        simp only [List.dropLast_concat] at ha
        rw [nx_setPrev, nx_setNext, if_neg (hAx a ha).1, (hx' a (by rintro rfl; exact hxA ha)).1]
      · intro a ha
        have ha' := List.mem_of_mem_tail ha
        have : a ≠ n ∧ a ≠ x := by
          rcases List.mem_append.mp ha' with h | h
          · exact ⟨(hAx a h).2, by rintro rfl; exact hxA h⟩
          · simp only [List.mem_singleton] at h; subst h; exact ⟨hpn, Ne.symm hxp⟩
        rw [pv_setPrev, if_neg this.1, pv_setNext, (hx' a this.2).2.1]
      · rw [nx_setPrev, nx_setNext, if_pos rfl, (hx' p (Ne.symm hxp)).1, hc2]; rfl
      · rw [pv_setPrev, if_neg hxn, pv_setNext]; unfold pv; rw [hself]; rfl
      · rw [nx_setPrev, nx_setNext, if_neg hxp]; unfold nx; rw [hself]; rfl
      · rw [pv_setPrev, if_pos rfl, pv_setNext, (hx' n (Ne.symm hxn)).2.1, hc3]; rfl
      · intro a ha
        have ha' := List.dropLast_subset _ ha
        have : a ≠ p ∧ a ≠ x := by
          rcases List.mem_cons.mp ha' with h | h
          · subst h; exact ⟨hpn.symm, Ne.symm hxn⟩
          · exact ⟨(hBx a h).1, by rintro rfl; exact hxB h⟩
        rw [nx_setPrev, nx_setNext, if_neg this.1, (hx' a this.2).1]
      · intro a ha
        have ha : a ∈ B := ha
        rw [pv_setPrev, if_neg (hBx a ha).2, pv_setNext, (hx' a (by rintro rfl; exact hxB ha)).2.1]
    · intro a ha
      have ha : a ∈ full L (xs ++ x :: ys) := ha
      rw [e1] at ha
      rw [isSome_setPrev, isSome_setNext]
      unfold setCell
      split
      · rfl
      · apply hal
        simp only [List.mem_append, List.mem_cons] at ha ⊢
        tauto
    · intro a ha
      rw [pr_setPrev, pr_setNext]
      by_cases hax : a = x
      · subst hax; unfold pr; rw [hself]; rfl
      · rw [(hx' a hax).2.2]
        exact h.par a (by simp only [List.mem_append, List.mem_cons] at ha ⊢; tauto)
    · show L.count + 1 = _
      rw [h.count]; simp only [List.length_append, List.length_cons]; omega
  · intro a ha
    rw [e1] at ha
    simp only [List.mem_append, List.mem_cons, not_or] at ha
    rw [setPrev_ne ha.2.2.2.1, setNext_ne ha.2.1, setCell_ne ha.2.2.1]
  · rw [isSome_setPrev, isSome_setNext]; simp [setCell]

/-- reading links through `Rep` -/
theorem Rep.link {m : Mem} {L : LObj} {xs ys : List Nat} (h : Rep m L (xs ++ ys)) :
    nx m ((L.head :: xs).getLast (by simp)) = some ((ys ++ [L.tail]).head (by simp)) ∧
    pv m ((ys ++ [L.tail]).head (by simp)) = some ((L.head :: xs).getLast (by simp)) := by
  obtain ⟨A, p, n, B, eA, eB, ef⟩ := full_split L xs ys
  have e0 := ef []
  simp only [List.append_nil, List.nil_append] at e0
  have hch := h.chain
  rw [e0, chain_append] at hch
  obtain ⟨_, h1, h2, _⟩ := hch
  have hp : (L.head :: xs).getLast (by simp) = p := by simp [eA]
  have hn : (ys ++ [L.tail]).head (by simp) = n := by simp [eB]
  rw [hp, hn]
  exact ⟨h1, h2⟩

theorem pv_some {m : Mem} {a b : Nat} (h : pv m a = some b) : ∃ c, m a = some c ∧ c.prev = b := by
  unfold pv at h
  cases hm : m a with
  | none => rw [hm] at h; simp at h
  | some c => rw [hm] at h; exact ⟨c, rfl, by simpa using h⟩
theorem nx_some {m : Mem} {a b : Nat} (h : nx m a = some b) : ∃ c, m a = some c ∧ c.next = b := by
  unfold nx at h
  cases hm : m a with
  | none => rw [hm] at h; simp at h
  | some c => rw [hm] at h; exact ⟨c, rfl, by simpa using h⟩

theorem walkF_spec {m : Mem} {L : LObj} : ∀ (ys xs : List Nat), Rep m L (xs ++ ys) →
    walkF m L.tail ((ys ++ [L.tail]).head (by simp)) = some ys := by
  intro ys
  induction ys with
  | nil => intro xs h; rw [walkF]; simp
  | cons y ys ih =>
    intro xs h
    have h' : Rep m L ((xs ++ [y]) ++ ys) := by simpa using h
    have hl := h'.link.1
    have hy : (L.head :: (xs ++ [y])).getLast (by simp) = y := by
      rw [List.getLast_cons (by simp)]; simp
    rw [hy] at hl
    obtain ⟨c, hc, e⟩ := nx_some hl
    have hne : y ≠ L.tail := by
      have := h.nodup
      unfold full at this
      simp only [List.nodup_cons, List.nodup_append, List.mem_cons, List.mem_append, List.mem_singleton] at this
      exact this.2.2.2 y (by simp) L.tail (Or.inl rfl)
    show walkF m L.tail y = _
    rw [walkF, if_neg hne, hc]
    dsimp only
    rw [e, ih _ h']
    rfl

theorem walkB_spec {m : Mem} {L : LObj} : ∀ (xs ys : List Nat), Rep m L (xs.reverse ++ ys) →
    walkB m L.head ((L.head :: xs.reverse).getLast (by simp)) = some xs := by
  intro xs
  induction xs with
  | nil => intro ys h; rw [walkB]; simp
  | cons x xs ih =>
    intro ys h
    have h' : Rep m L (xs.reverse ++ (x :: ys)) := by simpa using h
    have hl := h'.link.2
    have hx : (x :: ys ++ [L.tail]).head (by simp) = x := by simp
    rw [hx] at hl
    obtain ⟨c, hc, e⟩ := pv_some hl
    have hne : x ≠ L.head := by
      have := h.nodup
      unfold full at this
      simp only [List.nodup_cons] at this
      rintro rfl
      apply this.1; simp
    have : (L.head :: (x :: xs).reverse).getLast (by simp) = x := by
      rw [List.getLast_cons (by simp)]; simp
    rw [this, walkB, if_neg hne, hc]
    dsimp only
    rw [e, ih _ h']
    rfl

theorem items_spec {m : Mem} {L : LObj} {xs : List Nat} (h : Rep m L xs) : items m L = some xs := by
  have h' : Rep m L ([] ++ xs) := h
  have hl := h'.link.1
  obtain ⟨c, hc, e⟩ := nx_some hl
  have hc : m L.head = some c := hc
  unfold items beginP endP
  rw [hc]
  simp only [Option.map_some, Option.bind_some]
  rw [e]
  exact walkF_spec xs [] h'

theorem itemsRev_spec {m : Mem} {L : LObj} {xs : List Nat} (h : Rep m L xs) : itemsRev m L = some xs.reverse := by
  have h' : Rep m L (xs ++ []) := by rw [List.append_nil]; exact h
  have hl := h'.link.2
  obtain ⟨c, hc, e⟩ := pv_some hl
  have hc : m L.tail = some c := hc
  unfold itemsRev
  rw [hc]
  simp only [Option.bind_some]
  rw [e]
  have := walkB_spec (m := m) (L := L) xs.reverse [] (by simpa using h)
  simpa using this

theorem eraseLoop_spec {zs : List Nat} : ∀ (ys : List Nat) {m : Mem} {L : LObj} {xs : List Nat},
    Rep m L (xs ++ ys.reverse ++ zs) →
    ∃ m', eraseLoop m L ((L.head :: xs).getLast (by simp)) ((zs ++ [L.tail]).head (by simp)) =
        some (m', { L with count := L.count - ys.length }) ∧
      Rep m' { L with count := L.count - ys.length } (xs ++ zs) ∧
      (∀ a, a ∉ full L (xs ++ ys.reverse ++ zs) → m' a = m a) ∧ (∀ a ∈ ys, m' a = none) := by
  intro ys
  induction ys with
  | nil =>
    intro m L xs h
    simp only [List.reverse_nil, List.append_nil] at h
    obtain ⟨c, hc, e⟩ := pv_some h.link.2
    refine ⟨m, ?_, by simpa using h, by simp, by simp⟩
    rw [eraseLoop, hc]
    simp [e]
  | cons y ys ih =>
    intro m L xs h
    have h1 : Rep m L ((xs ++ ys.reverse ++ [y]) ++ zs) := by simpa using h
    obtain ⟨c, hc, e⟩ := pv_some h1.link.2
    have hy : (L.head :: (xs ++ ys.reverse ++ [y])).getLast (by simp) = y := by
      rw [List.getLast_cons (by simp)]; simp
    rw [hy] at e
    have hne : y ≠ (L.head :: xs).getLast (by simp) := by
      have hn := h1.nodup
      have hm : (L.head :: xs).getLast (by simp) ∈ L.head :: xs := List.getLast_mem _
      unfold full at hn
      intro he
      rw [← he] at hm
      have : (L.head :: xs ++ (ys.reverse ++ [y] ++ zs ++ [L.tail])).Nodup := by simpa using hn
      exact (List.nodup_append.mp this).2.2 y hm y (by simp) rfl
    obtain ⟨m1, e1, r1, f1, d1, _⟩ := erase_spec h1 true
    have r1' : Rep m1 { L with count := L.count - 1 } (xs ++ ys.reverse ++ zs) := r1
    obtain ⟨m2, e2, r2, f2, d2⟩ := ih r1'
    have hcnt : L.count - 1 - (ys.length : Int) = L.count - ((y :: ys).length : Int) := by
      simp only [List.length_cons]; omega
    refine ⟨m2, ?_, ?_, ?_, ?_⟩
    · rw [eraseLoop, hc]
      dsimp only
      rw [e, if_neg hne, e1]
      show eraseLoop m1 _ _ _ = _
      rw [← hcnt]
      exact e2
    · rw [← hcnt]; exact r2
    · intro a ha
      have hfull : full L (xs ++ (y :: ys).reverse ++ zs) = full L (xs ++ ys.reverse ++ [y] ++ zs) := by simp
      rw [hfull] at ha
      rw [f2 a, f1 a ha]
      intro ha'
      apply ha
      simp only [full, List.mem_cons, List.mem_append] at ha' ⊢
      tauto
    · intro a ha
      rcases List.mem_cons.mp ha with rfl | ha
      · rw [f2 a, d1 rfl]
        have hn := h1.nodup
        simp only [full, List.nodup_cons, List.nodup_append, List.mem_cons, List.mem_append, List.mem_singleton] at hn ⊢
        intro hcon
        obtain ⟨hh, ⟨⟨⟨_, _, hA⟩, _, hB⟩, _, hC⟩⟩ := hn
        rcases hcon with h | (((h | h) | h) | h)
        · apply hh; rw [h]; simp
        · exact hA a (Or.inl h) a (Or.inl rfl) rfl
        · exact hA a (Or.inr h) a (Or.inl rfl) rfl
        · exact hB a (by simp) a h rfl
        · exact hC a (by simp) a h rfl
      · exact d2 a ha

theorem removeLoop_spec {p : Nat → Bool} : ∀ (xs : List Nat) {m : Mem} {L : LObj} {zs : List Nat},
    Rep m L (xs.reverse ++ zs) →
    ∃ m' n, removeLoop p m L ((L.head :: xs.reverse).getLast (by simp)) = some (m', { L with count := n }) ∧
      Rep m' { L with count := n } ((xs.filter (fun x => !p x)).reverse ++ zs) ∧
      (∀ a, a ∉ full L (xs.reverse ++ zs) → m' a = m a) ∧ (∀ a ∈ xs, p a = true → m' a = none) := by
  intro xs
  induction xs with
  | nil =>
    intro m L zs h
    refine ⟨m, L.count, ?_, by simpa using h, by simp, by simp⟩
    rw [removeLoop]; simp
  | cons x xs ih =>
    intro m L zs h
    have h1 : Rep m L (xs.reverse ++ [x] ++ zs) := by simpa using h
    have h2 : Rep m L (xs.reverse ++ (x :: zs)) := by simpa using h
    obtain ⟨c, hc, e⟩ := pv_some h2.link.2
    have hc : m x = some c := hc
    have hx : (L.head :: (x :: xs).reverse).getLast (by simp) = x := by
      rw [List.getLast_cons (by simp)]; simp
    have hnd := h1.nodup
    have hne : x ≠ L.head := by
      unfold full at hnd
      simp only [List.nodup_cons] at hnd
      rintro rfl
      apply hnd.1; simp
    rw [hx, removeLoop, if_neg hne, hc]
    dsimp only
    have hfull : full L ((x :: xs).reverse ++ zs) = full L (xs.reverse ++ [x] ++ zs) := by simp
    rw [hfull]
    cases hp : p x with
    | true =>
      obtain ⟨m1, e1, r1, f1, d1, _⟩ := erase_spec h1 true
      obtain ⟨m2, n, e2, r2, f2, d2⟩ := ih (L := { L with count := L.count - 1 }) r1
      refine ⟨m2, n, ?_, ?_, ?_, ?_⟩
      · rw [if_pos rfl, e1]
        show removeLoop p m1 _ c.prev = _
        rw [e]
        exact e2
      · simpa [List.filter_cons, hp] using r2
      · intro a ha
        rw [f2 a, f1 a ha]
        intro ha'
        apply ha
        simp only [full, List.mem_cons, List.mem_append] at ha' ⊢
        tauto
      · intro a ha hpa
        rcases List.mem_cons.mp ha with rfl | ha
        · rw [f2 a, d1 rfl]
          have hn := hnd
          simp only [full, List.nodup_cons, List.nodup_append, List.mem_cons, List.mem_append, List.mem_singleton] at hn ⊢
          intro hcon
          obtain ⟨hh, ⟨⟨⟨_, _, hA⟩, _, hB⟩, _, hC⟩⟩ := hn
          rcases hcon with h | ((h | h) | h)
          · apply hh; rw [h]; simp
          · exact hA a h a (Or.inl rfl) rfl
          · exact hB a (by simp) a h rfl
          · exact hC a (by simp) a h rfl
        · exact d2 a ha hpa
    | false =>
      obtain ⟨m2, n, e2, r2, f2, d2⟩ := ih h2
      refine ⟨m2, n, ?_, ?_, ?_, ?_⟩
      · rw [if_neg (by simp), e]; exact e2
      · simpa [List.filter_cons, hp] using r2
      · intro a ha; apply f2; simpa using ha
      · intro a ha hpa
        rcases List.mem_cons.mp ha with rfl | ha
        · rw [hp] at hpa; simp at hpa
        · exact d2 a ha hpa

end Cmmc.IList
