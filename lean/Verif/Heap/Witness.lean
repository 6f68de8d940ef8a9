/-
Concrete executions: examples for the theorems of C85, and what the code does not guarantee.
-/
import Verif.Heap.Props

namespace Verif.Heap

/-! ### Tools -/

/-- `n` integers with two limbs each. -/
def St.full (n : Nat) : St :=
  ⟨fun x => if x < n then some ⟨2, some x⟩ else none, n, fun a => ⟨2, decide (a < n), fun _ => if a < n then 5 else 0⟩, n⟩

theorem fine_full (n : Nat) : Fine (St.full n) := by
  have hv : ∀ x m, (St.full n).vars x = some m → x < n ∧ m = ⟨2, some x⟩ := by
    intro x m hm
    simp only [St.full] at hm
    split at hm
    · exact ⟨‹_›, by cases hm; rfl⟩
    · cases hm
  refine ⟨fun x hx => ⟨⟨2, some x⟩, if_pos hx, fun h => (nomatch h), fun a ha => ?_⟩, ?_⟩
  · cases ha
    have hx : x < n := hx
    exact ⟨hx, by simp [St.full, hx], rfl⟩
  · intro x y m m' a _ _ hm hm' hp hp'
    rw [(hv x m hm).2] at hp
    rw [(hv y m' hm').2] at hp'
    cases hp
    cases hp'
    rfl

theorem not_lost_full {n a : Nat} : ¬ Lost (St.full n) a := fun ⟨ha, _, h⟩ =>
  h a ⟨2, some a⟩ ha (if_pos ha) rfl

/-- `P` holds at the end of the execution with the choices `ch`. -/
def ends (P : Out → St → Bool) (c : Cmd) (σ : St) (ch : List Nat) : Bool :=
  match exec 400 c σ ch with
  | some (o, σ', _) => P o σ'
  | none => false

theorem run_of_ends {P : Out → St → Bool} {c : Cmd} {σ : St} {ch : List Nat} (h : ends P c σ ch = true) :
    ∃ o σ', Run c σ o σ' ∧ P o σ' = true := by
  unfold ends at h
  split at h
  · rename_i o σ' _ he
    exact ⟨o, σ', exec_sound _ _ _ _ _ _ _ he, h⟩
  · cases h

/-- The block `a` is lost, by computation. -/
def lostB (σ : St) (a : Nat) : Bool :=
  decide (a < σ.nh) && (σ.heap a).live && (List.range σ.nv).all fun x => decide ((σ.vars x).bind Mpi.p ≠ some a)

theorem lost_of_lostB {σ : St} {a : Nat} (h : lostB σ a = true) : Lost σ a := by
  simp only [lostB, Bool.and_eq_true, decide_eq_true_eq, List.all_eq_true, List.mem_range] at h
  exact ⟨h.1.1, h.1.2, fun x m hx hm hp => h.2 x hx (by rw [hm]; exact hp)⟩

/-! ### Examples -/

/-- The hypotheses of `c85_call`: `X = A^E mod N` with a cache, on four integers and a cache. -/
example : Call false false [1, 2, 3] [0, 4] (expMod 0 1 2 3 (some 4)) ∧ Fine (St.full 5) ∧
    (∀ x ∈ [1, 2, 3] ++ [0, 4], x < (St.full 5).nv) ∧ ∃ o σ', Run (expMod 0 1 2 3 (some 4)) (St.full 5) o σ' ∧ o = .err := by
  refine ⟨.expModCache (by decide), fine_full 5, by decide, ?_⟩
  obtain ⟨o, σ', h, hP⟩ := run_of_ends (P := fun o _ => decide (o = .err)) (c := expMod 0 1 2 3 (some 4)) (σ := St.full 5)
    (ch := [0]) (by decide +kernel)
  exact ⟨o, σ', h, by simpa using hP⟩

/-- The hypotheses of `c85_call` with the output among the inputs: `X = X X mod X`. -/
example : Call false false [0, 0] [0] (modMpi 0 0 0) ∧ Fine (St.full 1) ∧ ∃ σ', Run (modMpi 0 0 0) (St.full 1) .ok σ' := by
  refine ⟨.modMpi, fine_full 1, ?_⟩
  obtain ⟨o, σ', h, hP⟩ := run_of_ends (P := fun o _ => decide (o = .ok)) (c := modMpi 0 0 0) (σ := St.full 1)
    (ch := [1, 1, 1, 2, 2, 2, 2, 2, 2, 1, 1, 0, 1, 0, 1, 2, 0, 0]) (by decide +kernel)
  exact ⟨σ', by simp only [decide_eq_true_eq] at hP; subst hP; exact h⟩

/-- The hypotheses of `c85_prog`: a function with two temporaries. -/
example : Prog false false [0, 1] (.locals 2 fun s => initAll (List.range' s 2) ;;
    cleanup (mulMpi s (some 0) (some 1) ;; gcd (s + 1) s 0 ;; copy 0 (s + 1)) (freeAll (List.range' s 2))) := by
  refine .scope (use := fun s => mulMpi s (some 0) (some 1) ;; gcd (s + 1) s 0 ;; copy 0 (s + 1)) fun s => ?_
  have hs : ∀ {x}, x ∈ List.range' s 2 ↔ x = s ∨ x = s + 1 := by intro x; simp [List.range']
  refine .seq (.call .mulMpi ?_) (.seq (.call .gcd ?_) (.call .copy ?_)) <;> simp [hs]

/-- The program of the next examples: a key is read, and the permutation is evaluated. -/
def parseEval : Cmd := tdpScope tdpParse tdpEval

theorem client_parseEval : Client false false true [] parseEval :=
  .tdpParse rfl fun k => .op (.eval (o := .tdp k) (by simp))

/-- The hypotheses of `c85_whole`: `parseEval` can end without an exception. -/
example : Client false false true [] parseEval ∧ ∃ σ', Run parseEval .start .ok σ' ∧ 50 < σ'.nh := by
  refine ⟨client_parseEval, ?_⟩
  obtain ⟨o, σ', h, hP⟩ := run_of_ends (P := fun o σ' => decide (o = .ok) && decide (50 < σ'.nh)) (c := parseEval) (σ := .start)
    (ch :=
  [1, 1, 2, 1, 1, 1, 1, 1, 1, 2, 1, 1, 1, 2, 2, 1, 2, 2, 1, 1, 1, 1, 1, 2, 2, 1, 1, 1, 1, 2, 2, 1, 1, 1, 2, 2, 2, 2,
    2, 2, 1, 1, 0, 1, 0, 1, 2, 0, 0, 1, 1, 1, 1, 1, 1, 1, 2, 2, 2, 2, 1, 1, 1, 1, 2, 2, 2, 2, 2, 2, 1, 1, 0, 1, 0, 1,
    2, 0, 0, 1, 2, 1, 1, 2, 1, 1, 2, 2, 0, 2, 2, 1, 1, 2, 2, 1, 1, 2, 2, 1, 1, 2, 2, 1, 1, 2, 2, 1, 1, 2, 2, 1, 1, 2,
    2, 1, 1, 2, 2, 1, 1, 2, 2, 1, 1, 2, 2, 1, 1, 2, 2, 1, 1, 2, 2, 1, 1, 2, 2, 1, 1, 2, 2, 1, 1, 2, 2, 1, 1, 2, 2, 1,
    1, 2, 2, 1, 1, 2, 2, 1, 1, 2, 2, 1, 1, 2, 2, 1, 1, 2, 2, 1, 1, 2, 2, 1, 1, 2, 2, 1, 1, 2, 2, 1, 1, 2, 2, 1, 1, 2,
    2, 1, 1, 2, 2, 1, 1, 2, 2, 1, 1, 2, 2, 1, 1, 2, 2, 1, 1, 2, 2, 1, 1, 0, 0, 1, 1, 1, 2, 2, 2, 2, 2, 2, 2, 2, 2, 2,
    2, 2, 2]) (by decide +kernel)
  simp only [Bool.and_eq_true, decide_eq_true_eq] at hP
  obtain ⟨rfl, h2⟩ := hP
  exact ⟨σ', h, h2⟩

/-- The hypotheses of `c85_client_partial`: two objects, with a copy of the first made, changed and dropped in a loop. -/
example : Client false true true [.tdp 0, .inv 13]
    (.loop (.ign (tdpScope (tdpCopy 0) fun k => tdpAssign k 13 ;; tdpSample k ;; tdpInvertMult 13))) ∧
    Apart [.tdp 0, .inv 13] ∧ Fine (St.full 29) ∧ ∀ x ∈ varsOf [.tdp 0, .inv 13], x < (St.full 29).nv := by
  refine ⟨.loop (.catch rfl (.tdpCopy (o := .tdp 0) (by simp) fun k => .seq (.op (.assign (o := .inv 13) (by simp) (by simp)))
    (.seq (.op (.sample (o := .tdp k) (by simp))) (.op (.invertMult (by simp)))))), ?_, fine_full 29, by decide⟩
  intro o ho o' ho'
  simp only [List.mem_cons, List.not_mem_nil, or_false] at ho ho'
  rcases ho with rfl | rfl <;> rcases ho' with rfl | rfl
  · exact .inl ⟨rfl, rfl⟩
  · exact .inr (by decide)
  · exact .inr (by decide)
  · exact .inl ⟨rfl, rfl⟩

/-! ### What the code does not guarantee -/

/-- A whole program that ends with an exception can have lost a block: an allocation fails while `eval` reduces the
argument, `x` is not released. -/
theorem c85_eval_loses : ∃ σ, Run parseEval .start .err σ ∧ ∃ a, Lost σ a := by
  obtain ⟨o, σ', h, hP⟩ := run_of_ends (P := fun o σ' => decide (o = .err) && lostB σ' 6) (c := parseEval) (σ := .start)
    (ch :=
  [1, 1, 2, 1, 1, 1, 1, 1, 1, 2, 1, 1, 1, 2, 2, 1, 2, 2, 1, 1, 1, 1, 1, 2, 2, 1, 1, 1, 1, 2, 2, 1, 1, 1, 1]) (by decide +kernel)
  simp only [Bool.and_eq_true, decide_eq_true_eq] at hP
  obtain ⟨rfl, h2⟩ := hP
  exact ⟨σ', h, 6, lost_of_lostB h2⟩

/-- When the constructor of `TdpInverseImpl_mbedTLS` fails to allocate `phi_`, the values `p - 1` and `q - 1` are lost
and not erased. -/
theorem c85_ctor_loses : ∃ σ, Run (invScope (invGen false) fun _ => .skip) .start .err σ ∧
    ∃ a a', a ≠ a' ∧ Lost σ a ∧ Lost σ a' ∧ (σ.heap a).data 0 ≠ 0 ∧ (σ.heap a').data 0 ≠ 0 := by
  obtain ⟨o, σ', h, hP⟩ := run_of_ends (P := fun o σ' => decide (o = .err) && (lostB σ' 66 && (lostB σ' 67 &&
      (decide ((σ'.heap 66).data 0 ≠ 0) && decide ((σ'.heap 67).data 0 ≠ 0)))))
    (c := invScope (invGen false) fun _ => .skip) (σ := .start)
    (ch :=
  [1, 1, 2, 1, 1, 1, 2, 2, 1, 1, 1, 1, 1, 1, 1, 2, 1, 0, 1, 0, 1, 1, 0, 1, 1, 2, 2, 0, 2, 1, 0, 1, 2, 2, 0, 2, 1, 0,
    1, 1, 1, 2, 2, 1, 1, 1, 1, 1, 1, 1, 2, 1, 0, 1, 0, 1, 1, 0, 1, 1, 2, 2, 0, 2, 1, 0, 1, 2, 2, 0, 2, 1, 0, 1, 2, 2,
    1, 1, 1, 2, 2, 0, 1, 2, 2, 0, 2, 2, 2, 2, 1, 1, 0, 1, 2, 0, 1, 2, 2, 1, 1, 0, 1, 2, 1, 1, 1, 1, 2, 2, 2, 2, 2, 2,
    1, 1, 0, 1, 0, 1, 2, 0, 0, 2, 2, 2, 2, 2, 2, 2, 0, 0, 1, 1, 2, 0, 1, 2, 0, 1, 2, 0, 0, 0, 0, 2, 1, 1, 1, 2, 2, 2,
    2, 2, 2, 1, 1, 0, 1, 0, 1, 2, 0, 0, 1, 1, 1, 2, 2, 2, 2, 2, 2, 1, 1, 0, 1, 0, 1, 2, 0, 0, 1, 2, 2, 1, 1, 0, 1, 2,
    1, 1, 1, 1, 2, 2, 2, 2, 2, 2, 1, 1, 0, 1, 0, 1, 2, 0, 0, 2, 2, 2, 2, 2, 2, 2, 0, 0, 1, 1, 2, 0, 1, 2, 0, 1, 2, 0,
    0, 0, 0, 2, 1, 1, 1, 1, 2, 2, 0, 1, 2, 2, 0, 1]) (by decide +kernel)
  simp only [Bool.and_eq_true, decide_eq_true_eq] at hP
  obtain ⟨rfl, h1, h2, h3, h4⟩ := hP
  exact ⟨σ', h, 66, 67, by decide, lost_of_lostB h1, lost_of_lostB h2, h3, h4⟩

/-- When an allocation fails in `invert_mult` after `y` has been set, `y` is lost and not erased. -/
theorem c85_invertMult_loses : ∃ σ, Fine σ ∧ (∀ a, ¬ Lost σ a) ∧ ∃ σ', Run (tdpInvertMult 0) σ .err σ' ∧
    ∃ a, Lost σ' a ∧ (σ'.heap a).data 0 ≠ 0 := by
  refine ⟨St.full 16, fine_full 16, fun a => not_lost_full, ?_⟩
  obtain ⟨o, σ', h, hP⟩ := run_of_ends (P := fun o σ' => decide (o = .err) && (lostB σ' 102 && decide ((σ'.heap 102).data 0 ≠ 0)))
    (c := tdpInvertMult 0) (σ := St.full 16)
    (ch :=
  [1, 1, 2, 2, 2, 2, 2, 1, 1, 1, 2, 2, 2, 2, 2, 2, 1, 1, 0, 1, 0, 1, 2, 0, 0, 0, 2, 2, 1, 1, 1, 2, 2, 2, 2, 2, 2, 1,
    1, 0, 1, 0, 1, 2, 0, 0, 0, 1, 1, 1, 1, 1, 1, 1, 2, 2, 2, 1, 2, 1, 1, 2, 1, 1, 2, 2, 0, 2, 2, 1, 1, 2, 2, 1, 1, 2,
    2, 1, 1, 2, 2, 1, 1, 2, 2, 1, 1, 2, 2, 1, 1, 2, 2, 1, 1, 2, 2, 1, 1, 2, 2, 1, 1, 2, 2, 1, 1, 2, 2, 1, 1, 2, 2, 1,
    1, 2, 2, 1, 1, 2, 2, 1, 1, 2, 2, 1, 1, 2, 2, 1, 1, 2, 2, 1, 1, 2, 2, 1, 1, 2, 2, 1, 1, 2, 2, 1, 1, 2, 2, 1, 1, 2,
    2, 1, 1, 2, 2, 1, 1, 2, 2, 1, 1, 2, 2, 1, 1, 2, 2, 1, 1, 2, 2, 1, 1, 2, 2, 1, 1, 2, 2, 1, 1, 2, 2, 1, 1, 2, 2, 1,
    1, 0, 0, 1, 1, 1, 1, 1, 1, 1, 1, 1, 2, 2, 2, 1, 2, 1, 1, 2, 1, 1, 2, 2, 0, 2, 2, 1, 1, 2, 2, 1, 1, 2, 2, 1, 1, 2,
    2, 1, 1, 2, 2, 1, 1, 2, 2, 1, 1, 2, 2, 1, 1, 2, 2, 1, 1, 2, 2, 1, 1, 2, 2, 1, 1, 2, 2, 1, 1, 2, 2, 1, 1, 2, 2, 1,
    1, 2, 2, 1, 1, 2, 2, 1, 1, 2, 2, 1, 1, 2, 2, 1, 1, 2, 2, 1, 1, 2, 2, 1, 1, 2, 2, 1, 1, 2, 2, 1, 1, 2, 2, 1, 1, 2,
    2, 1, 1, 2, 2, 1, 1, 2, 2, 1, 1, 2, 2, 1, 1, 2, 2, 1, 1, 2, 2, 1, 1, 2, 2, 1, 1, 2, 2, 1, 1, 2, 2, 1, 1, 0, 0, 1,
    1, 1, 2, 2, 0, 2, 2, 1, 1, 1, 1, 2, 2, 2, 2, 2, 2]) (by decide +kernel)
  simp only [Bool.and_eq_true, decide_eq_true_eq] at hP
  obtain ⟨rfl, h1, h2⟩ := hP
  exact ⟨σ', h, 102, lost_of_lostB h1, h2⟩

/-- When all random bases are out of range, `mpi_miller_rabin` loses its temporaries (`src/mbedtls/bignum.c` 2038-2040). -/
theorem c85_isPrime_loses : ∃ σ, Fine σ ∧ (∀ a, ¬ Lost σ a) ∧ ∃ σ', Run (isPrime true 0) σ .err σ' ∧
    ∃ a a' a'', a ≠ a' ∧ a ≠ a'' ∧ a' ≠ a'' ∧ Lost σ' a ∧ Lost σ' a' ∧ Lost σ' a'' := by
  refine ⟨St.full 1, fine_full 1, fun a => not_lost_full, ?_⟩
  obtain ⟨o, σ', h, hP⟩ := run_of_ends (P := fun o σ' => decide (o = .err) && (lostB σ' 1 && (lostB σ' 2 && lostB σ' 3)))
    (c := isPrime true 0) (σ := St.full 1)
    (ch := [1, 1, 1, 0, 1, 1, 2, 2, 0, 2, 1, 1, 1, 1, 2, 2, 1, 1, 1, 2, 2, 1, 0]) (by decide +kernel)
  simp only [Bool.and_eq_true, decide_eq_true_eq] at hP
  obtain ⟨rfl, h1, h2, h3⟩ := hP
  exact ⟨σ', h, 1, 2, 3, by decide, by decide, by decide, lost_of_lostB h1, lost_of_lostB h2, lost_of_lostB h3⟩

/-- `mbedtls_pem_write_buffer` releases its buffer with the encoded key in it (`src/mbedtls/pem.c` 181). -/
theorem c85_pem_residue : ∃ σ, Run pemWrite .start .ok σ ∧ ∃ a, Residue σ a := by
  obtain ⟨o, σ', h, hP⟩ := run_of_ends (P := fun o σ' => decide (o = .ok) && (decide (0 < σ'.nh) &&
      (decide ((σ'.heap 0).live = false) && (decide (0 < (σ'.heap 0).size) && decide ((σ'.heap 0).data 0 ≠ 0)))))
    (c := pemWrite) (σ := .start) (ch := [1, 2, 1]) (by decide +kernel)
  simp only [Bool.and_eq_true, decide_eq_true_eq] at hP
  obtain ⟨rfl, h1, h2, h3, h4⟩ := hP
  exact ⟨σ', h, 0, h1, h2, 0, h3, h4⟩

/-- Assignment of pools of different sizes: when the new array cannot be allocated the count has already been changed
and the old array been deleted, and the destructor uses it. -/
theorem c85_pool_assign_ub : ∃ σ, Fine σ ∧ ∃ σ', Run (cleanup (poolRealloc 2 1 0 40) (poolDtor 1 0)) σ .ub σ' := by
  refine ⟨St.full 67, fine_full 67, ?_⟩
  obtain ⟨o, σ', h, hP⟩ := run_of_ends (P := fun o _ => decide (o = .ub)) (c := cleanup (poolRealloc 2 1 0 40) (poolDtor 1 0))
    (σ := St.full 67) (ch := List.replicate 24 2 ++ [1]) (by decide +kernel)
  simp only [decide_eq_true_eq] at hP
  subst hP
  exact ⟨σ', h⟩

/-- A pool of size 1 has no keys, and its constructor writes to `keys_[0]`. -/
theorem c85_pool_one_ub : ∃ σ, Fine σ ∧ ∃ σ', Run (initAll [13] ;; poolBody 0 0) σ .ub σ' := by
  refine ⟨St.full 14, fine_full 14, ?_⟩
  obtain ⟨o, σ', h, hP⟩ := run_of_ends (P := fun o _ => decide (o = .ub)) (c := initAll [13] ;; poolBody 0 0)
    (σ := St.full 14) (ch := [1, 2]) (by decide +kernel)
  simp only [decide_eq_true_eq] at hP
  subst hP
  exact ⟨σ', h⟩

end Verif.Heap
