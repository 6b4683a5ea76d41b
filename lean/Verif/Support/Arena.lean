/-!
# Model of `Arena` (cmmc/Support/Arena.cpp:23-72)

Addresses are natural numbers; `uintptr_t` arithmetic is reduced modulo 2^64 where the code computes with it.
`mBlocks` is a vector (list), `mLargeBlocks` an unordered set (list without repetitions, order irrelevant).
The system allocator (`aligned_alloc`/`cmmcAllocate`, `free`) is the environment: its answer is a parameter and the heap of
system blocks that are allocated and not freed is tracked next to the arena; freeing an address that is not an allocated
block (double free, bad free) is `none`.
Not modelled: failure of the system allocator (the code does not check for null), the contents of memory.
-/
namespace Cmmc.Arena

/-- `blockSize` (Arena.cpp:23) -/
def blockSize : Nat := 32 * 4096

/-- 2^64, the modulus of `uintptr_t` -/
def W64 : Nat := 2 ^ 64

/-- `Arena` (Arena.hpp:38-41) -/
structure Arena where
  ptr : Nat
  endp : Nat
  blocks : List Nat
  large : List Nat
deriving DecidableEq, Repr

/-- `Arena::Arena()` (Arena.cpp:25) -/
def fresh : Arena := ⟨0, 0, [], []⟩

/-- `alloc` (Arena.cpp:36-38) -/
def align (ptr alignment : Nat) : Nat := (((ptr + alignment) % W64 + (W64 - 1)) % W64 / alignment * alignment) % W64

/-- `Arena::allocate` (Arena.cpp:40-66). `sys` is the address the system allocator would answer with. The result is the new
arena, the returned pointer, and the size of the system block requested (if any). -/
def allocate (a : Arena) (size alignment sys : Nat) : Arena × Nat × Option Nat :=
  if size ≥ blockSize then
    ({ a with large := if sys ∈ a.large then a.large else sys :: a.large }, sys, some size)
  else if (align a.ptr alignment + size) % W64 > a.endp then
    let a' := { a with blocks := a.blocks ++ [sys] }
    (if (a.endp + (W64 - a.ptr)) % W64 < blockSize - size then
      { a' with ptr := (sys + size) % W64, endp := (sys + blockSize) % W64 }
     else a', sys, some blockSize)
  else
    ({ a with ptr := (align a.ptr alignment + size) % W64 }, align a.ptr alignment, none)

/-- the system heap: allocated and not yet freed blocks (address, size) -/
abbrev Heap := List (Nat × Nat)

/-- `free`: undefined (`none`) unless the address is an allocated block -/
def sysFree (h : Heap) (p : Nat) : Option Heap :=
  if p ∈ h.map Prod.fst then some (h.filter (fun b => b.1 ≠ p)) else none

/-- `Arena::deallocate` (Arena.cpp:67-72) -/
def deallocate (a : Arena) (h : Heap) (p size : Nat) : Option (Arena × Heap) :=
  if size ≥ blockSize then
    (sysFree h p).map fun h' => ({ a with large := a.large.filter (fun q => q ≠ p) }, h')
  else some (a, h)

/-- free a list of addresses in order -/
def freeAll (h : Heap) : List Nat → Option Heap
  | [] => some h
  | p :: ps => (sysFree h p).bind fun h' => freeAll h' ps

/-- `Arena::~Arena` (Arena.cpp:29-34) -/
def destroy (a : Arena) (h : Heap) : Option Heap := (freeAll h a.blocks).bind fun h' => freeAll h' a.large

/-! ## Histories -/

/-- a region handed out to a client -/
structure Region where
  addr : Nat
  size : Nat
  alignment : Nat
deriving DecidableEq, Repr

structure World where
  arena : Arena
  heap : Heap
  live : List Region

def start : World := ⟨fresh, [], []⟩

/-- two address ranges `[a, a+s)` and `[b, b+t)` do not overlap -/
def Disj (a s b t : Nat) : Prop := a + s ≤ b ∨ b + t ≤ a

/-- the contract of the system allocator for a block of `n` bytes: non-null, aligned, in the user half of the address space,
not overlapping any block still allocated -/
def SysOK (h : Heap) (p n alignment : Nat) : Prop :=
  p ≠ 0 ∧ alignment ∣ p ∧ p + n ≤ 2 ^ 63 ∧ ∀ b ∈ h, Disj p n b.1 b.2

/-- the system heap after a request -/
def heapAfter (h : Heap) (sys : Nat) : Option Nat → Heap
  | some n => (sys, n) :: h
  | none => h

/-- one legal client call. Clients ask for a positive size and a positive alignment of at most 2^62, and give back only a
region they were given and have not given back yet. They may understate the size when giving it back (the code's own
`ArenaAllocator::deallocate`, Arena.hpp, passes an element count). -/
inductive Step : World → World → Prop
  | alloc (w : World) (size alignment sys : Nat) (a' : Arena) (p : Nat) (req : Option Nat)
      (hs : 0 < size) (ha : 0 < alignment) (ha' : alignment ≤ 2 ^ 62)
      (e : allocate w.arena size alignment sys = (a', p, req))
      (hsys : ∀ n, req = some n → SysOK w.heap sys n alignment) :
      Step w ⟨a', heapAfter w.heap sys req, ⟨p, size, alignment⟩ :: w.live⟩
  | dealloc (w : World) (r : Region) (size : Nat) (a' : Arena) (h' : Heap)
      (hr : r ∈ w.live) (hs : size ≤ r.size) (e : deallocate w.arena w.heap r.addr size = some (a', h')) :
      Step w ⟨a', h', w.live.erase r⟩

inductive Reach : World → Prop
  | start : Reach start
  | step {w w'} : Reach w → Step w w' → Reach w'

/-! ## Invariant -/

structure Inv (w : World) : Prop where
  nodup : (w.arena.blocks ++ w.arena.large).Nodup
  heapAddr : (w.heap.map Prod.fst).Perm (w.arena.blocks ++ w.arena.large)
  heapDisj : w.heap.Pairwise (fun x y => Disj x.1 x.2 y.1 y.2)
  heapOK : ∀ b ∈ w.heap, 0 < b.2 ∧ b.1 + b.2 ≤ 2 ^ 63
  blk : ∀ b ∈ w.arena.blocks, (b, blockSize) ∈ w.heap
  ptrLe : w.arena.ptr ≤ w.arena.endp
  bump : w.arena.endp = 0 ∨ ∃ b ∈ w.arena.blocks, b ≤ w.arena.ptr ∧ w.arena.endp = b + blockSize
  liveIn : ∀ r ∈ w.live, 0 < r.size ∧ r.alignment ∣ r.addr ∧
    ((∃ b ∈ w.arena.blocks, b ≤ r.addr ∧ r.addr + r.size ≤ b + blockSize ∧ r.size < blockSize) ∨
     (r.size ≥ blockSize ∧ r.addr ∈ w.arena.large ∧ (r.addr, r.size) ∈ w.heap))
  liveDisj : w.live.Pairwise (fun x y => Disj x.addr x.size y.addr y.size)
  liveBump : ∀ r ∈ w.live, Disj r.addr r.size w.arena.ptr (w.arena.endp - w.arena.ptr)

theorem W64_eq : W64 = 18446744073709551616 := rfl
theorem blockSize_eq : blockSize = 131072 := rfl

theorem align_spec {p al : Nat} (hp : p ≤ 2 ^ 63) (ha : 0 < al) (ha' : al ≤ 2 ^ 62) :
    al ∣ align p al ∧ p ≤ align p al ∧ align p al < p + al ∧ align p al < W64 := by
  have e : align p al = (p + al - 1) / al * al := by
    unfold align
    rw [W64_eq]
    have h1 : (p + al) % 18446744073709551616 = p + al := Nat.mod_eq_of_lt (by omega)
    rw [h1]
    have h2 : (p + al + (18446744073709551616 - 1)) % 18446744073709551616 = p + al - 1 := by omega
    rw [h2]
    apply Nat.mod_eq_of_lt
    have := Nat.div_mul_le_self (p + al - 1) al
    omega
  have h1 := Nat.div_mul_le_self (p + al - 1) al
  have h2 := Nat.div_add_mod (p + al - 1) al
  have h3 := Nat.mod_lt (p + al - 1) ha
  rw [Nat.mul_comm] at h2
  refine ⟨e ▸ Nat.dvd_mul_left _ _, ?_, ?_, ?_⟩
  · rw [e]; omega
  · rw [e]; omega
  · rw [e, W64_eq]; omega

theorem liveIn_heap {w : World} (I : Inv w) {r : Region} (hr : r ∈ w.live) :
    ∃ b ∈ w.heap, b.1 ≤ r.addr ∧ r.addr + r.size ≤ b.1 + b.2 := by
  obtain ⟨_, _, h | h⟩ := I.liveIn r hr
  · obtain ⟨b, hb, h1, h2, _⟩ := h
    exact ⟨_, I.blk b hb, h1, h2⟩
  · exact ⟨_, h.2.2, Nat.le_refl _, Nat.le_refl _⟩

/-- a region fresh for the heap does not overlap a live region -/
theorem fresh_live {w : World} (I : Inv w) {p n : Nat} (h : ∀ b ∈ w.heap, Disj p n b.1 b.2) {r : Region} (hr : r ∈ w.live) :
    Disj p n r.addr r.size := by
  obtain ⟨b, hb, h1, h2⟩ := liveIn_heap I hr
  have := h b hb
  unfold Disj at *; omega

theorem fresh_notmem {w : World} (I : Inv w) {p n : Nat} (hn : 0 < n) (h : ∀ b ∈ w.heap, Disj p n b.1 b.2) :
    p ∉ w.arena.blocks ++ w.arena.large := by
  intro hp
  rw [← I.heapAddr.mem_iff, List.mem_map] at hp
  obtain ⟨b, hb, rfl⟩ := hp
  have := h b hb
  have := (I.heapOK b hb).1
  unfold Disj at *; omega

theorem endp_le {w : World} (I : Inv w) : w.arena.endp ≤ 2 ^ 63 := by
  rcases I.bump with h | ⟨b, hb, _, h⟩
  · omega
  · have := (I.heapOK _ (I.blk b hb)).2
    dsimp only at this
    omega

theorem step_alloc {w : World} (I : Inv w) (size al sys : Nat) (a' : Arena) (p : Nat) (req : Option Nat)
    (hs : 0 < size) (ha : 0 < al) (ha' : al ≤ 2 ^ 62)
    (e : allocate w.arena size al sys = (a', p, req))
    (hsys : ∀ n, req = some n → SysOK w.heap sys n al) :
    Inv ⟨a', heapAfter w.heap sys req, ⟨p, size, al⟩ :: w.live⟩ := by
  have hend := endp_le I
  have hple := I.ptrLe
  unfold allocate at e
  split at e
  · -- large block
    rename_i hbig
    simp only [Prod.mk.injEq] at e
    obtain ⟨rfl, rfl, rfl⟩ := e
    obtain ⟨h0, hal, hhi, hd⟩ := hsys size rfl
    have hnm := fresh_notmem I hs hd
    have hnl : sys ∉ w.arena.large := fun h => hnm (List.mem_append_right _ h)
    rw [if_neg hnl]
    refine ⟨?_, ?_, ?_, ?_, ?_, hple, I.bump, ?_, ?_, ?_⟩
    · exact List.perm_middle.nodup_iff.mpr (List.nodup_cons.mpr ⟨hnm, I.nodup⟩)
    · exact ((I.heapAddr.cons sys).trans List.perm_middle.symm)
    · exact List.pairwise_cons.mpr ⟨hd, I.heapDisj⟩
    · intro b hb
      rcases List.mem_cons.mp hb with rfl | hb
      · exact ⟨hs, hhi⟩
      · exact I.heapOK b hb
    · intro b hb; exact List.mem_cons_of_mem _ (I.blk b hb)
    · intro r hr
      rcases List.mem_cons.mp hr with rfl | hr
      · exact ⟨hs, hal, Or.inr ⟨hbig, List.mem_cons_self, List.mem_cons_self⟩⟩
      · obtain ⟨h1, h2, h3⟩ := I.liveIn r hr
        refine ⟨h1, h2, h3.imp id ?_⟩
        rintro ⟨h4, h5, h6⟩
        exact ⟨h4, List.mem_cons_of_mem _ h5, List.mem_cons_of_mem _ h6⟩
    · exact List.pairwise_cons.mpr ⟨fun r hr => fresh_live I hd hr, I.liveDisj⟩
    · intro r hr
      rcases List.mem_cons.mp hr with rfl | hr
      · dsimp only
        rcases I.bump with h | ⟨b, hb, h1, h2⟩
        · unfold Disj; omega
        · have := hd _ (I.blk b hb)
          unfold Disj at *
          dsimp only at this
          omega
      · exact I.liveBump r hr
  · rename_i hsmall
    split at e
    · -- new small block
      dsimp only at e
      simp only [Prod.mk.injEq] at e
      obtain ⟨ea, rfl, rfl⟩ := e
      obtain ⟨h0, hal, hhi, hd⟩ := hsys blockSize rfl
      have hbs := blockSize_eq
      have hnm := fresh_notmem I (by omega) hd
      have hb' : a'.blocks = w.arena.blocks ++ [sys] := by rw [← ea]; split <;> rfl
      have hl' : a'.large = w.arena.large := by rw [← ea]; split <;> rfl
      have hbump : (a'.ptr = sys + size ∧ a'.endp = sys + blockSize) ∨
          (a'.ptr = w.arena.ptr ∧ a'.endp = w.arena.endp) := by
        rw [← ea]; split
        · left
          dsimp only
          rw [W64_eq]
          exact ⟨Nat.mod_eq_of_lt (by omega), Nat.mod_eq_of_lt (by omega)⟩
        · right; exact ⟨rfl, rfl⟩
      have hold : ∀ r ∈ w.live, Disj sys blockSize r.addr r.size := fun r hr => fresh_live I hd hr
      refine ⟨?_, ?_, ?_, ?_, ?_, ?_, ?_, ?_, ?_, ?_⟩
      · dsimp only; rw [hb', hl', List.append_assoc]
        exact List.perm_middle.nodup_iff.mpr (List.nodup_cons.mpr ⟨hnm, I.nodup⟩)
      · dsimp only; rw [hb', hl', List.append_assoc]
        exact ((I.heapAddr.cons sys).trans List.perm_middle.symm)
      · exact List.pairwise_cons.mpr ⟨hd, I.heapDisj⟩
      · intro b hb
        rcases List.mem_cons.mp hb with rfl | hb
        · exact ⟨by dsimp only; omega, hhi⟩
        · exact I.heapOK b hb
      · dsimp only; rw [hb']
        intro b hb
        rcases List.mem_append.mp hb with hb | hb
        · exact List.mem_cons_of_mem _ (I.blk b hb)
        · rw [List.mem_singleton] at hb; subst hb; exact List.mem_cons_self
      · dsimp only; omega
      · dsimp only
        rw [hb']
        rcases hbump with ⟨h1, h2⟩ | ⟨h1, h2⟩
        · exact Or.inr ⟨sys, by simp, by omega, h2⟩
        · rcases I.bump with h | ⟨b, hb, h3, h4⟩
          · left; omega
          · exact Or.inr ⟨b, List.mem_append_left _ hb, by omega, by omega⟩
      · intro r hr
        dsimp only
        rw [hb', hl']
        rcases List.mem_cons.mp hr with rfl | hr
        · exact ⟨hs, hal, Or.inl ⟨sys, by simp, Nat.le_refl _, by dsimp only; omega, by dsimp only; omega⟩⟩
        · obtain ⟨h1, h2, h3⟩ := I.liveIn r hr
          refine ⟨h1, h2, h3.imp ?_ ?_⟩
          · rintro ⟨b, hb, h4⟩; exact ⟨b, List.mem_append_left _ hb, h4⟩
          · rintro ⟨h4, h5, h6⟩; exact ⟨h4, h5, List.mem_cons_of_mem _ h6⟩
      · refine List.pairwise_cons.mpr ⟨fun r hr => ?_, I.liveDisj⟩
        have := hold r hr
        have := (I.liveIn r hr).1
        unfold Disj at *; dsimp only; omega
      · intro r hr
        dsimp only
        rcases List.mem_cons.mp hr with rfl | hr
        · dsimp only
          rcases hbump with ⟨h1, h2⟩ | ⟨h1, h2⟩
          · unfold Disj; omega
          · rcases I.bump with h | ⟨b, hb, h3, h4⟩
            · unfold Disj; omega
            · have := hd _ (I.blk b hb)
              unfold Disj at *
              dsimp only at this
              omega
        · rcases hbump with ⟨h1, h2⟩ | ⟨h1, h2⟩
          · have := hold r hr
            unfold Disj at *; omega
          · have := I.liveBump r hr
            rw [h1, h2]; exact this
    · -- bump
      rename_i hfit
      simp only [Prod.mk.injEq] at e
      obtain ⟨rfl, rfl, rfl⟩ := e
      obtain ⟨a1, a2, a3, a4⟩ := align_spec (p := w.arena.ptr) (by omega) ha ha'
      have hbs := blockSize_eq
      have hm : (align w.arena.ptr al + size) % W64 = align w.arena.ptr al + size := by
        apply Nat.mod_eq_of_lt
        rw [W64_eq] at *
        omega
      rw [hm] at hfit ⊢
      have hbp : ∃ b ∈ w.arena.blocks, b ≤ w.arena.ptr ∧ w.arena.endp = b + blockSize := by
        rcases I.bump with h | h
        · omega
        · exact h
      obtain ⟨b, hb, h1, h2⟩ := hbp
      refine ⟨I.nodup, I.heapAddr, I.heapDisj, I.heapOK, I.blk, ?_, ?_, ?_, ?_, ?_⟩
      · dsimp only; omega
      · exact Or.inr ⟨b, hb, by dsimp only; omega, h2⟩
      · intro r hr
        rcases List.mem_cons.mp hr with rfl | hr
        · exact ⟨hs, a1, Or.inl ⟨b, hb, by dsimp only; omega, by dsimp only; omega, by dsimp only; omega⟩⟩
        · exact I.liveIn r hr
      · refine List.pairwise_cons.mpr ⟨fun r hr => ?_, I.liveDisj⟩
        have := I.liveBump r hr
        have := (I.liveIn r hr).1
        unfold Disj at *; dsimp only; omega
      · intro r hr
        rcases List.mem_cons.mp hr with rfl | hr
        · unfold Disj; dsimp only; omega
        · have := I.liveBump r hr
          have := (I.liveIn r hr).1
          unfold Disj at *; dsimp only; omega

theorem filter_perm_erase {l : List Nat} (h : l.Nodup) (p : Nat) : l.filter (fun q => q ≠ p) = l.erase p := by
  rw [h.erase_eq_filter]
  apply List.filter_congr
  intro x _
  by_cases hx : x = p <;> simp [hx]

theorem sysFree_perm {h h' : Heap} {l : List Nat} {p : Nat} (hp : (h.map Prod.fst).Perm l)
    (e : sysFree h p = some h') : (h'.map Prod.fst).Perm (l.filter (fun q => q ≠ p)) := by
  unfold sysFree at e
  split at e
  · simp only [Option.some.injEq] at e
    subst e
    have : (h.filter (fun b => b.1 ≠ p)).map Prod.fst = (h.map Prod.fst).filter (fun q => q ≠ p) := by
      rw [List.filter_map]; rfl
    rw [this]
    exact hp.filter _
  · simp at e

/-- giving back a live region never frees a wrong address -/
theorem dealloc_ok {w : World} (I : Inv w) {r : Region} (hr : r ∈ w.live) {size : Nat} (hs : size ≤ r.size) :
    ∃ a' h', deallocate w.arena w.heap r.addr size = some (a', h') := by
  unfold deallocate
  split
  · rename_i hbig
    obtain ⟨_, _, ⟨b, _, h⟩ | h⟩ := I.liveIn r hr
    · omega
    · unfold sysFree
      rw [if_pos (List.mem_map.mpr ⟨_, h.2.2, rfl⟩)]
      exact ⟨_, _, rfl⟩
  · exact ⟨_, _, rfl⟩

theorem step_dealloc {w : World} (I : Inv w) {r : Region} (hr : r ∈ w.live) {size : Nat} (hs : size ≤ r.size)
    {a' : Arena} {h' : Heap} (e : deallocate w.arena w.heap r.addr size = some (a', h')) :
    Inv ⟨a', h', w.live.erase r⟩ := by
  have hsub : ∀ x ∈ w.live.erase r, x ∈ w.live := fun x hx => List.mem_of_mem_erase hx
  have hother : ∀ x ∈ w.live.erase r, Disj x.addr x.size r.addr r.size := by
    have hp := List.perm_cons_erase hr
    have := (hp.pairwise_iff (R := fun x y : Region => Disj x.addr x.size y.addr y.size)
      (by intro x y h; unfold Disj at *; omega)).mp I.liveDisj
    intro x hx
    have := (List.pairwise_cons.mp this).1 x hx
    unfold Disj at *; omega
  have hldisj := I.liveDisj.sublist (List.erase_sublist (a := r))
  unfold deallocate at e
  split at e
  · rename_i hbig
    obtain ⟨_, _, ⟨b, _, h⟩ | ⟨hsz, hlarge, hheap⟩⟩ := I.liveIn r hr
    · omega
    cases ef : sysFree w.heap r.addr with
    | none => rw [ef] at e; simp at e
    | some h2 =>
      rw [ef] at e
      simp only [Option.map_some, Option.some.injEq, Prod.mk.injEq] at e
      obtain ⟨rfl, rfl⟩ := e
      have hnd := I.nodup
      have hnb : r.addr ∉ w.arena.blocks := by
        rw [List.nodup_append] at hnd
        intro hx
        exact hnd.2.2 _ hx _ hlarge rfl
      have hbf : w.arena.blocks.filter (fun q => q ≠ r.addr) = w.arena.blocks := by
        rw [List.filter_eq_self]
        intro b hb
        simp only [ne_eq, decide_not, Bool.not_eq_eq_eq_not, Bool.not_true, decide_eq_false_iff_not]
        rintro rfl; exact hnb hb
      have hperm := sysFree_perm I.heapAddr ef
      rw [List.filter_append, hbf] at hperm
      have hkeep : ∀ b ∈ w.heap, b.1 ≠ r.addr → b ∈ h2 := by
        intro b hb hne
        unfold sysFree at ef
        rw [if_pos (List.mem_map.mpr ⟨_, hheap, rfl⟩)] at ef
        simp only [Option.some.injEq] at ef
        subst ef
        exact List.mem_filter.mpr ⟨hb, by simp [hne]⟩
      have hsubh : h2.Sublist w.heap := by
        unfold sysFree at ef
        rw [if_pos (List.mem_map.mpr ⟨_, hheap, rfl⟩)] at ef
        simp only [Option.some.injEq] at ef
        subst ef
        exact List.filter_sublist
      refine ⟨?_, hperm, I.heapDisj.sublist hsubh, ?_, ?_, I.ptrLe, I.bump, ?_, hldisj, ?_⟩
      · dsimp only
        exact hnd.sublist (List.Sublist.append (List.Sublist.refl _) List.filter_sublist)
      · intro b hb; exact I.heapOK b (hsubh.subset hb)
      · intro b hb
        exact hkeep _ (I.blk b hb) (by dsimp only; rintro rfl; exact hnb hb)
      · intro x hx
        obtain ⟨h1, h2', h3⟩ := I.liveIn x (hsub x hx)
        refine ⟨h1, h2', h3.imp id ?_⟩
        rintro ⟨h4, h5, h6⟩
        have hne : x.addr ≠ r.addr := by
          intro hx'
          have := hother x hx
          rw [hx'] at this
          have := (I.liveIn r hr).1
          unfold Disj at *; omega
        exact ⟨h4, List.mem_filter.mpr ⟨h5, by simp [hne]⟩, hkeep _ h6 hne⟩
      · intro x hx; exact I.liveBump x (hsub x hx)
  · simp only [Option.some.injEq, Prod.mk.injEq] at e
    obtain ⟨rfl, rfl⟩ := e
    exact ⟨I.nodup, I.heapAddr, I.heapDisj, I.heapOK, I.blk, I.ptrLe, I.bump, fun x hx => I.liveIn x (hsub x hx), hldisj,
      fun x hx => I.liveBump x (hsub x hx)⟩

theorem reach_inv {w : World} (h : Reach w) : Inv w := by
  induction h with
  | start =>
    refine ⟨by simp [start, fresh], by simp [start, fresh], by simp [start], by simp [start], by simp [start, fresh],
      by simp [start, fresh], Or.inl rfl, by simp [start], by simp [start], by simp [start]⟩
  | step _ hs ih =>
    cases hs with
    | alloc size al sys a' p req hs ha ha' e hsys => exact step_alloc ih size al sys a' p req hs ha ha' e hsys
    | dealloc r size a' h' hr hs e => exact step_dealloc ih hr hs e

theorem freeAll_perm : ∀ (l : List Nat) (rest : List Nat) (h : Heap), (h.map Prod.fst).Perm (l ++ rest) → (l ++ rest).Nodup →
    ∃ h', freeAll h l = some h' ∧ (h'.map Prod.fst).Perm rest := by
  intro l
  induction l with
  | nil => intro rest h hp _; exact ⟨h, rfl, hp⟩
  | cons p ps ih =>
    intro rest h hp hn
    have hmem : p ∈ h.map Prod.fst := hp.mem_iff.mpr (by simp)
    have e : sysFree h p = some (h.filter (fun b => b.1 ≠ p)) := by unfold sysFree; rw [if_pos hmem]
    have hp' := sysFree_perm hp e
    rw [filter_perm_erase hn p] at hp'
    simp only [List.cons_append, List.erase_cons_head] at hp'
    simp only [List.cons_append, List.nodup_cons] at hn
    obtain ⟨h', e', hp''⟩ := ih rest _ hp' hn.2
    refine ⟨h', ?_, hp''⟩
    unfold freeAll
    rw [e]
    exact e'

/-- C13: after every legal history, the regions handed out and not given back are aligned as requested, lie inside a block the
system still has allocated for the arena, and are pairwise disjoint. -/
theorem C13_live_regions {w : World} (h : Reach w) :
    (∀ r ∈ w.live, r.alignment ∣ r.addr) ∧
    (∀ r ∈ w.live, ∃ b ∈ w.heap, b.1 ≤ r.addr ∧ r.addr + r.size ≤ b.1 + b.2) ∧
    w.live.Pairwise (fun x y => x.addr + x.size ≤ y.addr ∨ y.addr + y.size ≤ x.addr) := by
  have I := reach_inv h
  exact ⟨fun r hr => (I.liveIn r hr).2.1, fun r hr => liveIn_heap I hr, I.liveDisj⟩

/-- C13: giving back a live region is always defined (no bad or double free), even when its size is understated. -/
theorem C13_dealloc_defined {w : World} (h : Reach w) {r : Region} (hr : r ∈ w.live) {size : Nat} (hs : size ≤ r.size) :
    ∃ a' h', deallocate w.arena w.heap r.addr size = some (a', h') := dealloc_ok (reach_inv h) hr hs

/-- C13: the destructor frees every system block exactly once: no bad free, nothing left. -/
theorem C13_destroy_frees_all {w : World} (h : Reach w) : destroy w.arena w.heap = some [] := by
  have I := reach_inv h
  obtain ⟨h1, e1, p1⟩ := freeAll_perm _ _ _ I.heapAddr I.nodup
  have hn : (w.arena.large ++ []).Nodup := by
    rw [List.append_nil]; exact (List.nodup_append.mp I.nodup).2.1
  obtain ⟨h2, e2, p2⟩ := freeAll_perm w.arena.large [] h1 (by rw [List.append_nil]; exact p1) hn
  unfold destroy
  rw [e1]
  show freeAll h1 w.arena.large = some []
  rw [e2]
  have : h2.map Prod.fst = [] := List.perm_nil.mp p2
  rw [List.map_eq_nil_iff] at this
  rw [this]

/-- a concrete reachable world with two live regions in one block and a large one -/
example : ∃ w, Reach w ∧ w.live.length = 3 ∧ w.heap.length = 2 := by
  have e1 : allocate start.arena 24 8 4096 = (⟨4120, 135168, [4096], []⟩, 4096, some blockSize) := by decide
  have s1 := Reach.step Reach.start (Step.alloc start 24 8 4096 _ _ _ (by omega) (by omega) (by omega) e1
    (by intro n h
        simp only [Option.some.injEq] at h; subst h
        exact ⟨by omega, by decide, by decide, by simp [start]⟩))
  have e2 : allocate ⟨4120, 135168, [4096], []⟩ 5 16 0 = (⟨4133, 135168, [4096], []⟩, 4128, none) := by decide
  have s2 := Reach.step s1 (Step.alloc _ 5 16 0 _ _ _ (by omega) (by omega) (by omega) e2 (by intro n h; simp at h))
  have e3 : allocate ⟨4133, 135168, [4096], []⟩ 200000 16 1048576 = (⟨4133, 135168, [4096], [1048576]⟩, 1048576, some 200000) := by
    decide
  have s3 := Reach.step s2 (Step.alloc _ 200000 16 1048576 _ _ _ (by omega) (by omega) (by omega) e3
    (by intro n h
        simp only [Option.some.injEq] at h; subst h
        refine ⟨by omega, by decide, by decide, ?_⟩
        intro b hb
        have hb' : b = (4096, blockSize) := by simpa [start, heapAfter] using hb
        subst hb'
        exact Or.inr (by decide)))
  exact ⟨_, s3, rfl, rfl⟩

end Cmmc.Arena
