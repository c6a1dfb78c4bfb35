/-
  Small numpy/Python vocabulary used by the model.

  0/1 and bool numpy arrays are stored as bit tables (one natural number), so that
  writing an array entry is strict, both for the compiled evaluator and for the
  kernel.  The only facts the proofs use about the storage are the `get_of`
  lemmas: reading entry `(i,j)` of `of f` gives `f i j`.
-/
namespace Medil

/-- Python exceptions / abnormal outcomes, as values.  `hang` is "the loop does not
terminate within the given number of steps"; `unmodelled` is an input on which the
model makes no statement at all (see the place where it is produced). -/
inductive PyErr where
  | indexError | keyError | valueError | typeError | stopIteration | attributeError | notImplemented
  | unboundLocal | nameError | zeroDivision | linAlg | exception | hang | unmodelled
  deriving DecidableEq, Repr

/-- Number whose bit `i` is `f i` for `i < k` (and 0 above). -/
def bitsOf : Nat → (Nat → Bool) → Nat
  | 0, _ => 0
  | k + 1, f => bitsOf k f ||| ((f k).toNat <<< k)

theorem testBit_bitsOf (k : Nat) (f : Nat → Bool) (i : Nat) :
    (bitsOf k f).testBit i = (decide (i < k) && f i) := by
  induction k with
  | zero => simp [bitsOf]
  | succ k ih =>
    simp only [bitsOf, Nat.testBit_or, ih, Nat.testBit_shiftLeft]
    rcases Nat.lt_trichotomy i k with h | h | h
    · have : ¬ (k ≤ i) := by omega
      have h' : i < k + 1 := by omega
      simp [h, this, h']
    · subst h
      cases f i <;> simp
    · have h1 : ¬ (i < k) := by omega
      have h2 : ¬ (i < k + 1) := by omega
      have h3 : k ≤ i := by omega
      simp only [h1, h2, h3, decide_false, Bool.false_and, Bool.false_or, decide_true, Bool.true_and]
      cases f k
      · simp
      · have : i - k ≠ 0 := by omega
        rw [Bool.eq_false_iff]
        intro h'
        simp at h'
        exact this (Nat.testBit_one_eq_true_iff_self_eq_zero.mp h')

/-- 1-d 0/1 (or bool) numpy array of length `n`; also Python sets of vertices. -/
structure BVec (n : Nat) where
  bits : Nat
  deriving DecidableEq, Repr

namespace BVec
variable {n : Nat}

def of (f : Fin n → Bool) : BVec n :=
  ⟨bitsOf n (fun i => if h : i < n then f ⟨i, h⟩ else false)⟩

def get (v : BVec n) (i : Fin n) : Bool := v.bits.testBit i.val

instance : CoeFun (BVec n) (fun _ => Fin n → Bool) := ⟨get⟩

@[simp] theorem get_of (f : Fin n → Bool) (i : Fin n) : (of f) i = f i := by
  simp [get, of, testBit_bitsOf, i.isLt]

/-- `np.flatnonzero(v)` / the elements of a Python set of vertices, in increasing order. -/
def toList (v : BVec n) : List (Fin n) := (List.finRange n).filter v

@[simp] theorem mem_toList (v : BVec n) (i : Fin n) : i ∈ v.toList ↔ v i = true := by
  simp [toList]

/-- `v.sum()` / `len(set)`. -/
def card (v : BVec n) : Nat := (List.finRange n).countP v

/-- all-zero array / empty set test `not s`. -/
def isEmpty (v : BVec n) : Bool := v.toList.isEmpty

theorem isEmpty_iff (v : BVec n) : v.isEmpty = true ↔ ∀ i, v i = false := by
  simp only [isEmpty, List.isEmpty_iff, toList, List.filter_eq_nil_iff]
  simp

end BVec

/-- square 0/1 (or bool) numpy matrix. -/
structure BMat (n : Nat) where
  bits : Nat
  deriving DecidableEq, Repr

theorem pair_lt {n : Nat} (i j : Fin n) : i.val * n + j.val < n * n := by
  have h1 := i.isLt; have h2 := j.isLt
  calc i.val * n + j.val < i.val * n + n := by omega
    _ = (i.val + 1) * n := by rw [Nat.add_mul]; omega
    _ ≤ n * n := Nat.mul_le_mul_right _ h1

namespace BMat
variable {n : Nat}

def of (f : Fin n → Fin n → Bool) : BMat n :=
  ⟨bitsOf (n * n) (fun k =>
    if h : k / n < n ∧ k % n < n then f ⟨k / n, h.1⟩ ⟨k % n, h.2⟩ else false)⟩

def get (M : BMat n) (i j : Fin n) : Bool := M.bits.testBit (i.val * n + j.val)

instance : CoeFun (BMat n) (fun _ => Fin n → Fin n → Bool) := ⟨get⟩

@[simp] theorem get_of (f : Fin n → Fin n → Bool) (i j : Fin n) : (of f) i j = f i j := by
  have hn : 0 < n := Nat.lt_of_le_of_lt (Nat.zero_le _) i.isLt
  have h1 : (i.val * n + j.val) / n = i.val := by
    rw [Nat.mul_comm, Nat.mul_add_div hn, Nat.div_eq_of_lt j.isLt]; omega
  have h2 : (i.val * n + j.val) % n = j.val := by
    rw [Nat.mul_comm, Nat.mul_add_mod, Nat.mod_eq_of_lt j.isLt]
  simp [get, of, testBit_bitsOf, pair_lt, h1, h2]

/-- row `i` as an array -/
def row (M : BMat n) (i : Fin n) : BVec n := BVec.of (fun j => M i j)

@[simp] theorem get_row (M : BMat n) (i j : Fin n) : (M.row i) j = M i j := by simp [row]

end BMat

/-- An array with one 0/1 row of length `n` per vertex pair: the code's
`common_neighbors`, whose rows are indexed by `get_idx(edge)`. -/
structure BTab (n : Nat) where
  bits : Nat
  deriving DecidableEq, Repr

namespace BTab
variable {n : Nat}

def of (f : Fin n → Fin n → Fin n → Bool) : BTab n :=
  ⟨bitsOf (n * n * n) (fun k =>
    if h : k / n / n < n ∧ k / n % n < n ∧ k % n < n then
      f ⟨k / n / n, h.1⟩ ⟨k / n % n, h.2.1⟩ ⟨k % n, h.2.2⟩ else false)⟩

def get (M : BTab n) (i j k : Fin n) : Bool := M.bits.testBit ((i.val * n + j.val) * n + k.val)

instance : CoeFun (BTab n) (fun _ => Fin n → Fin n → Fin n → Bool) := ⟨get⟩

@[simp] theorem get_of (f : Fin n → Fin n → Fin n → Bool) (i j k : Fin n) :
    (of f) i j k = f i j k := by
  have hn : 0 < n := Nat.lt_of_le_of_lt (Nat.zero_le _) i.isLt
  have h0 : (i.val * n + j.val) * n + k.val < n * n * n := by
    have := pair_lt i j
    calc (i.val * n + j.val) * n + k.val < (i.val * n + j.val) * n + n := by have := k.isLt; omega
      _ = (i.val * n + j.val + 1) * n := by rw [Nat.add_mul (i.val * n + j.val)]; omega
      _ ≤ n * n * n := Nat.mul_le_mul_right _ this
  have h1 : ((i.val * n + j.val) * n + k.val) / n = i.val * n + j.val := by
    rw [Nat.mul_comm _ n, Nat.mul_add_div hn, Nat.div_eq_of_lt k.isLt]; omega
  have h2 : ((i.val * n + j.val) * n + k.val) % n = k.val := by
    rw [Nat.mul_comm _ n, Nat.mul_add_mod, Nat.mod_eq_of_lt k.isLt]
  have h3 : (i.val * n + j.val) / n = i.val := by
    rw [Nat.mul_comm, Nat.mul_add_div hn, Nat.div_eq_of_lt j.isLt]; omega
  have h4 : (i.val * n + j.val) % n = j.val := by
    rw [Nat.mul_comm, Nat.mul_add_mod, Nat.mod_eq_of_lt j.isLt]
  simp [get, of, testBit_bitsOf, h0, h1, h2, h3, h4]

/-- row of the table for the pair `(i,j)` -/
def row (M : BTab n) (i j : Fin n) : BVec n := BVec.of (fun k => M i j k)

@[simp] theorem get_row (M : BTab n) (i j k : Fin n) : (M.row i j) k = M i j k := by simp [row]

end BTab

/-- An integer array with one entry per vertex pair: the code's `nbrhood_edge_counts`. -/
structure ITab (n : Nat) where
  data : List Int
  deriving DecidableEq, Repr

namespace ITab
variable {n : Nat}

def of (f : Fin n → Fin n → Int) : ITab n :=
  ⟨(List.finRange n).flatMap fun i => (List.finRange n).map fun j => f i j⟩

def get (M : ITab n) (i j : Fin n) : Int := (M.data[i.val * n + j.val]?).getD 0

instance : CoeFun (ITab n) (fun _ => Fin n → Fin n → Int) := ⟨get⟩

theorem getElem?_flatMap_const {α β} (l : List α) (f : α → List β) (m : Nat)
    (hm : ∀ a, (f a).length = m) (i j : Nat) (hj : j < m) :
    (l.flatMap f)[i * m + j]? = (l[i]?).bind (fun a => (f a)[j]?) := by
  induction l generalizing i with
  | nil => simp
  | cons a l ih =>
    cases i with
    | zero =>
      simp only [List.flatMap_cons, Nat.zero_mul, Nat.zero_add]
      rw [List.getElem?_append_left (by rw [hm]; exact hj)]
      simp
    | succ i =>
      simp only [List.flatMap_cons]
      rw [List.getElem?_append_right (by rw [hm, Nat.add_mul]; omega), hm]
      have : (i + 1) * m + j - m = i * m + j := by rw [Nat.add_mul]; omega
      rw [this, ih]
      simp

@[simp] theorem get_of (f : Fin n → Fin n → Int) (i j : Fin n) : (of f) i j = f i j := by
  simp only [get, of]
  rw [getElem?_flatMap_const _ _ n (by simp) _ _ j.isLt]
  simp

end ITab

/-- number of `j` with `p j` (a bool-array `.sum()`). -/
def countFin {n : Nat} (p : Fin n → Bool) : Nat := (List.finRange n).countP p

/-- `n * (n - 1) // 2` on integers (`n_choose_2`, medil/graph.py:124-126). -/
def nChoose2 (m : Int) : Int := m * (m - 1) / 2

/-- all pairs `(u,v)` with `u < v`, in row-major order: `np.triu_indices(n, 1)`. -/
def triuPairs (n : Nat) : List (Fin n × Fin n) :=
  (List.finRange n).flatMap fun u =>
    ((List.finRange n).filter fun v => decide (u < v)).map fun v => (u, v)

/-- all index pairs `(i,j)`, `i < j`, of a list of vertices -/
def listPairs {α} : List α → List (α × α)
  | [] => []
  | a :: l => l.map (fun b => (a, b)) ++ listPairs l

end Medil
