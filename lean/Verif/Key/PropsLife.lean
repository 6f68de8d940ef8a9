import Verif.Key.LifeHeap

/-!
# C78: what constructors and derivations do to keys

Every function of `Verif/Key/ModelLife.lean` that is given a key takes it, or leaves it as it was; the keys it makes are exactly those it returns; all
temporaries are wiped and released, also when the function throws.  Exceptions: some derivations from a moved-from key lose a buffer.
`view`, `Clean` and `Effect` are defined in `Verif/Key/LifeHeap.lean`.
-/

namespace Verif.Key.Life

open Verif

variable {st : St} {i : Nat} {v : Bytes} {l : Bool} {o : Spec.Obj}

/-- What `Clean` means: a buffer that is not released belongs to exactly one key, and the buffer of a locked key cannot be accessed; a released buffer has been
    wiped, and was released once. -/
theorem c78_clean (hc : Clean st) : ∀ (c : Nat) cell, st.heap[c]? = some cell →
    (cell.frees = 0 ∧ (∃ i o, st.obj i = some o ∧ o.content = some c ∧ (o.locked = true → cell.prot = .noaccess) ∧
      ∀ j o', st.obj j = some o' → o'.content = some c → j = i)) ∨
    (cell.frees = 1 ∧ ∀ b ∈ cell.data, b = 0) := by
  intro c cell hcell
  have h1 := hc.1.freed c cell hcell
  by_cases h0 : cell.frees = 0
  · obtain ⟨i, o, ho, hcn⟩ := hc.2 c cell hcell h0
    obtain ⟨cell', hcell', -, hp⟩ := hc.1.own i o c ho hcn
    obtain rfl := Option.some.inj (hcell.symm.trans hcell')
    refine .inl ⟨h0, i, o, ho, hcn, fun hl => ?_, fun j o' ho' hcn' => hc.1.uniq j i o' o c ho' ho hcn' hcn⟩
    rw [hl] at hp
    simpa [ProtOk] using hp
  · have h2 : cell.frees = 1 := by omega
    refine .inr ⟨h2, fun b hb => ?_⟩
    rw [h1.2 h2] at hb
    exact (List.mem_replicate.1 hb).2

/-- A program of a user: calls, one after the other, whatever they throw. -/
inductive Calls where
  | done
  | call {α : Type} (p : P α) (rest : Calls)

def Calls.run : Calls → St → St
  | .done, st => st
  | .call p rest, st => rest.run (p.run true st).1

/-- The obligations of callers of `Key(uint8_t*)` are met in every call. -/
def Calls.Pre : Calls → Prop
  | .done => True
  | .call p rest => p.Pre ∧ rest.Pre

theorem calls_inv (p : Calls) : ∀ {st : St}, Inv true st → p.Pre → Inv true (p.run st) := by
  induction p with
  | done => exact fun h _ => h
  | call q rest ih =>
    intro st h hp
    obtain ⟨a, hs, -⟩ := sim_exists st
    exact ih (run_refines q hp.1 h hs).2.2.1 hp.2

/-- C78: in every program of a user, whatever its calls throw or lose: no two keys have the same buffer, the buffer of a key is not released, released buffers
    have been wiped, and were released once. -/
theorem c78_history (p : Calls) (hp : p.Pre) :
    (∀ j o c, (p.run St.init).obj j = some o → o.content = some c →
      (∃ cell, (p.run St.init).heap[c]? = some cell ∧ cell.frees = 0) ∧ ∀ k o', (p.run St.init).obj k = some o' → o'.content = some c → k = j) ∧
    ∀ cell ∈ (p.run St.init).heap, cell.frees = 0 ∨ cell.frees = 1 ∧ ∀ b ∈ cell.data, b = 0 := by
  have hi := calls_inv p (inv_init true) hp
  refine ⟨fun j o c ho hcn => ?_, fun cell hcell => ?_⟩
  · obtain ⟨cell, h1, h2, -⟩ := hi.own j o c ho hcn
    exact ⟨⟨cell, h1, h2⟩, fun k o' ho' hcn' => hi.uniq k j o' o c ho' ho hcn' hcn⟩
  · obtain ⟨c, hcc⟩ := List.getElem?_of_mem hcell
    have h1 := hi.freed c cell hcc
    by_cases h0 : cell.frees = 0
    · exact .inl h0
    · have h2 : cell.frees = 1 := by omega
      refine .inr ⟨h2, fun b hb => ?_⟩
      rw [h1.2 h2] at hb
      exact (List.mem_replicate.1 hb).2

/-- C78: once all keys are gone or empty, all buffers have been wiped and released. -/
theorem c78_end (hc : Clean st) (hend : ∀ j o, view st j = some o → o.value = none) : ∀ cell ∈ st.heap, cell.frees = 1 ∧ ∀ b ∈ cell.data, b = 0 := by
  intro cell hcell
  obtain ⟨c, hcc⟩ := List.getElem?_of_mem hcell
  rcases c78_clean hc c cell hcc with ⟨-, j, o, ho, hcn, -⟩ | h
  · have := hend j _ (by unfold view; rw [ho]; rfl)
    simp [absObj, hcn, hcc] at this
  · exact h

/-- Before the first key. -/
theorem c78_start : Clean St.init := ⟨inv_init true, by intro c cell h; simp [St.init] at h⟩

/-! ## Constructors -/

/-- C78: constructors of `Prg` and `Cipher` take the key whatever it is (an empty key too). -/
theorem c78_plain (hc : Clean st) (h : view st i = some o) :
    ((plainCtor i).run true st).2 = .ok st.objs.length ∧ Effect st ((plainCtor i).run true st).1 (some i) [(st.objs.length, o)] :=
  effect_some (pre_plainCtor i) hc (by rw [h]; simp) fun a hl hv => ⟨[some o], by rw [← hl]; exact mk_move 32 (by rw [hv, h]), by rw [← hl]; rfl⟩

/-- C78: constructors of `HMac` and `Prf`. -/
theorem c78_hmac (hc : Clean st) (h : view st i = some ⟨some v, l⟩) :
    ((hmacCtor i).run true st).2 = .ok st.objs.length ∧ Effect st ((hmacCtor i).run true st).1 (some i) [(st.objs.length, ⟨some v, l⟩)] :=
  effect_some (pre_hmacCtor i) hc (by rw [h]; simp) fun a hl hv => ⟨_, by rw [← hl]; exact hmacCtor_runS (by rw [hv, h]), by rw [← hl]; rfl⟩

/-- C78: they refuse an empty key and leave no object. -/
theorem c78_hmac_empty (hc : Clean st) (h : view st i = some ⟨none, l⟩) :
    ((hmacCtor i).run true st).2 = .exc .invalidArgument ∧ Effect st ((hmacCtor i).run true st).1 (some i) [] :=
  effect_some (pre_hmacCtor i) hc (by rw [h]; simp) fun a _ hv => ⟨_, hmacCtor_empty (by rw [hv, h]), rfl⟩

/-- C78: the constructor of `RCPrf`. -/
theorem c78_rcprf {n : Nat} (hc : Clean st) (h : view st i = some o) (h0 : n ≠ 0) (h1 : n ≤ 64) :
    ((rcprfCtor i n).run true st).2 = .ok st.objs.length ∧ Effect st ((rcprfCtor i n).run true st).1 (some i) [(st.objs.length, o)] :=
  effect_some (pre_rcprfCtor i n) hc (by rw [h]; simp) fun a hl hv => ⟨_, by rw [← hl]; exact rcprfCtor_runS (by rw [hv, h]) h0 h1, by rw [← hl]; rfl⟩

/-- C78: when `RCPrf` refuses the height, the key of the caller is gone all the same, and wiped. -/
theorem c78_rcprf_refused {n : Nat} (hc : Clean st) (h : view st i = some o) (h0 : n = 0 ∨ n > 64) :
    ((rcprfCtor i n).run true st).2 = .exc .invalidArgument ∧ Effect st ((rcprfCtor i n).run true st).1 (some i) [] :=
  effect_some (pre_rcprfCtor i n) hc (by rw [h]; simp) fun a _ hv => ⟨_, rcprfCtor_refused (by rw [hv, h]) h0, rfl⟩

/-- C78: the constructor of inner elements of constrained keys. -/
theorem c78_element {n : Nat} (hc : Clean st) (h : view st i = some o) (h1 : 1 < n) :
    ((elemCtor false i n).run true st).2 = .ok st.objs.length ∧ Effect st ((elemCtor false i n).run true st).1 (some i) [(st.objs.length, o)] :=
  effect_some (pre_elemCtor _ i n) hc (by rw [h]; simp) fun a hl hv => ⟨_, by rw [← hl]; exact elemCtor_runS (by rw [hv, h]) h1, by rw [← hl]; rfl⟩

/-- C78: refused for its height, the element has taken the key; refused by the base class, it has not. -/
theorem c78_element_refused {n : Nat} (hc : Clean st) (h : view st i = some o) :
    (n ≤ 1 → ((elemCtor false i n).run true st).2 = .exc .invalidArgument ∧ Effect st ((elemCtor false i n).run true st).1 (some i) []) ∧
    ((elemCtor true i n).run true st).2 = .exc .invalidArgument ∧ Effect st ((elemCtor true i n).run true st).1 none [] :=
  ⟨fun h1 => effect_some (pre_elemCtor _ i n) hc (by rw [h]; simp) fun a _ hv => ⟨_, elemCtor_low (by rw [hv, h]) h1, rfl⟩,
    effect_none (pre_elemCtor _ i n) hc fun a _ _ => ⟨[], by rw [List.append_nil]; rfl, rfl⟩⟩

/-- C78: the constructor of `Prp` makes a context from the key and erases the key. -/
theorem c78_prp (setup : Bytes → Bytes) (junk : Bytes) (hc : Clean st) (h : view st i = some ⟨some v, l⟩) :
    ((prpCtor setup junk i).run true st).2 = .ok st.objs.length ∧
      Effect st ((prpCtor setup junk i).run true st).1 (some i) [(st.objs.length, ⟨some (setup v), true⟩)] :=
  effect_some (pre_prpCtor setup junk i) hc (by rw [h]; simp) fun a hl hv =>
    ⟨_, by rw [← hl]; exact prpCtor_runS setup junk (by rw [hv, h]), by rw [← hl]; rfl⟩

/-- C78: `Prp()`: of the random key nothing is left but the context. -/
theorem c78_prp_new (setup : Bytes → Bytes) (junk r : Bytes) (hc : Clean st) :
    ((prpNew setup junk r).run true st).2 = .ok (st.objs.length + 1) ∧
      Effect st ((prpNew setup junk r).run true st).1 none [(st.objs.length + 1, ⟨some (setup r), true⟩)] :=
  effect_none (pre_prpNew setup junk r) hc fun a hl _ => ⟨_, by rw [← hl]; exact prpNew_runS setup junk r, by rw [← hl]; rfl⟩

/-- C78: the constructor of `Wrapper` leaves two keys, derived from the key it is given; the first, random keys of the members are gone. -/
theorem c78_wrapper {f1 f2 : Bytes → Bytes} (hf1 : ∀ v, 32 ≤ (f1 v).length) (hf2 : ∀ v, 32 ≤ (f2 v).length) (r1 r2 junk : Bytes) (hc : Clean st)
    (h : view st i = some ⟨some v, true⟩) :
    ((wrapperCtor f1 f2 r1 r2 junk i).run true st).2 = .ok (st.objs.length, st.objs.length + 1) ∧
      Effect st ((wrapperCtor f1 f2 r1 r2 junk i).run true st).1 (some i)
        [(st.objs.length, ⟨some ((f1 v).take 32), true⟩), (st.objs.length + 1, ⟨some ((f2 v).take 32), true⟩)] :=
  effect_some (pre_wrapperCtor hf1 hf2 r1 r2 junk i) hc (by rw [h]; simp) fun a hl hv =>
    ⟨_, by rw [← hl]; exact wrapperCtor_runS f1 f2 r1 r2 junk (by rw [hv, h]), by rw [← hl]; rfl⟩

/-- C78: it refuses an empty key and leaves no object. -/
theorem c78_wrapper_empty {f1 f2 : Bytes → Bytes} (hf1 : ∀ v, 32 ≤ (f1 v).length) (hf2 : ∀ v, 32 ≤ (f2 v).length) (r1 r2 junk : Bytes) (hc : Clean st)
    (h : view st i = some ⟨none, l⟩) :
    ((wrapperCtor f1 f2 r1 r2 junk i).run true st).2 = .exc .invalidArgument ∧ Effect st ((wrapperCtor f1 f2 r1 r2 junk i).run true st).1 (some i) [] :=
  effect_some (pre_wrapperCtor hf1 hf2 r1 r2 junk i) hc (by rw [h]; simp) fun a _ hv => ⟨_, wrapperCtor_empty f1 f2 r1 r2 junk (by rw [hv, h]), rfl⟩

/-! ## Derivations -/

/-- C78: `Prg::derive(Key&&, …)` consumes the key, also when it refuses the null pointer. -/
theorem c78_derive_static (outNull : Bool) (g : Bytes → Bytes) (hc : Clean st) (h : view st i = some ⟨some v, l⟩) :
    ((deriveStatic outNull g i).run true st).2 = (if outNull then .exc .invalidArgument else .ok (g v)) ∧
      Effect st ((deriveStatic outNull g i).run true st).1 (some i) [] :=
  effect_some (pre_deriveStatic outNull g i) hc (by rw [h]; simp) fun a _ hv => ⟨_, deriveStatic_runS outNull g (by rw [hv, h]), rfl⟩

/-- C78: it refuses an empty key. -/
theorem c78_derive_static_empty (outNull : Bool) (g : Bytes → Bytes) (hc : Clean st) (h : view st i = some ⟨none, l⟩) :
    ((deriveStatic outNull g i).run true st).2 = .exc .invalidArgument ∧ Effect st ((deriveStatic outNull g i).run true st).1 none [] :=
  effect_none (pre_deriveStatic outNull g i) hc fun a _ hv => ⟨[], by rw [List.append_nil]; exact deriveStatic_empty outNull g (by rw [hv, h]), rfl⟩

/-- C78: `Prg::derive_key` leaves its own key locked as it was, and makes one key. -/
theorem c78_derive_key (K : Nat) (junk : Bytes) (g : Bytes → Bytes) (hc : Clean st) (h : view st i = some ⟨some v, true⟩) :
    ((deriveKey K junk g i).run true st).2 = .ok st.objs.length ∧
      Effect st ((deriveKey K junk g i).run true st).1 none [(st.objs.length, ⟨some (g v), true⟩)] :=
  effect_none (pre_deriveKey K junk g i) hc fun a hl hv => ⟨_, by rw [← hl]; exact deriveKey_runS K junk g (by rw [hv, h]), by rw [← hl]; rfl⟩

/-- C78: `Prg::derive_key(Key&&, …)` consumes the key. -/
theorem c78_derive_key_static (K : Nat) (junk : Bytes) (g : Bytes → Bytes) (hc : Clean st) (h : view st i = some ⟨some v, l⟩) :
    ((deriveKeyStatic K junk g i).run true st).2 = .ok (st.objs.length + 1) ∧
      Effect st ((deriveKeyStatic K junk g i).run true st).1 (some i) [(st.objs.length + 1, ⟨some (g v), true⟩)] :=
  effect_some (pre_deriveKeyStatic K junk g i) hc (by rw [h]; simp) fun a hl hv =>
    ⟨_, by rw [← hl]; exact deriveKeyStatic_runS K junk g (by rw [hv, h]), by rw [← hl]; rfl⟩

/-- The keys that `derive_keys` cuts from its output: number `m` has the bytes from `m * K`. -/
def cut (K : Nat) (out : Bytes) (n first : Nat) : List (Nat × Spec.Obj) := (List.range n).map fun m => (first + m, ⟨some ((out.drop (m * K)).take K), true⟩)

theorem lives_parts (K : Nat) (out : Bytes) : ∀ n t first, lives first ((List.range' t n).map (part K out)) =
    (List.range' t n).map fun m => (first + m - t, ⟨some ((out.drop (m * K)).take K), true⟩) := by
  intro n
  induction n with
  | zero => intro t first; rfl
  | succ n ih =>
    intro t first
    simp only [List.range'_succ, List.map_cons, part, lives, ih, Nat.add_sub_cancel]
    congr 1
    refine List.map_congr_left fun m hm => ?_
    have := (List.mem_range'_1.1 hm).1
    congr 1
    omega

theorem lives_cut (K : Nat) (out : Bytes) (n first : Nat) : lives first ((List.range n).map (part K out)) = cut K out n first := by
  rw [List.range_eq_range', lives_parts, cut, List.range_eq_range']
  rfl

/-- C78: `Prg::derive_keys`: the buffer of all keys is gone afterwards. -/
theorem c78_derive_keys (K : Nat) (junk : Bytes) (g : Bytes → Bytes) {n : Nat} (hn : n ≠ 0) (hc : Clean st) (h : view st i = some ⟨some v, true⟩)
    (hg : n * K ≤ (g v).length) :
    ((deriveKeys K junk g n i).run true st).2 = .ok (List.range' (st.objs.length + 1) n) ∧
      Effect st ((deriveKeys K junk g n i).run true st).1 none (cut K (g v) n (st.objs.length + 1)) :=
  effect_none (pre_deriveKeys K junk g n i) hc fun a hl hv =>
    ⟨_, by rw [← hl]; exact deriveKeys_runS K junk g hn hg (by rw [hv, h]), by rw [← hl, ← lives_cut]; rfl⟩

/-- C78: `Prg::derive_keys(Key&&, …)` consumes the key. -/
theorem c78_derive_keys_static (K : Nat) (junk : Bytes) (g : Bytes → Bytes) {n : Nat} (hn : n ≠ 0) (hc : Clean st) (h : view st i = some ⟨some v, l⟩)
    (hg : n * K ≤ (g v).length) :
    ((deriveKeysStatic K junk g n i).run true st).2 = .ok (List.range' (st.objs.length + 2) n) ∧
      Effect st ((deriveKeysStatic K junk g n i).run true st).1 (some i) (cut K (g v) n (st.objs.length + 2)) :=
  effect_some (pre_deriveKeysStatic K junk g n i) hc (by rw [h]; simp) fun a hl hv =>
    ⟨_, by rw [← hl]; exact deriveKeysStatic_runS K junk g hn hg (by rw [hv, h]), by rw [← hl, ← lives_cut]; rfl⟩

/-- C78 fails here: asked for no keys, `Prg::derive_keys(Key&&, 0, …)` does not consume the key. -/
theorem c78_no_keys_false (K : Nat) (junk : Bytes) (g : Bytes → Bytes) (hc : Clean st) (h : view st i = some ⟨some v, l⟩) :
    ((deriveKeysStatic K junk g 0 i).run true st).2 = .ok [] ∧ Effect st ((deriveKeysStatic K junk g 0 i).run true st).1 none [] :=
  effect_none (pre_deriveKeysStatic K junk g 0 i) hc fun a _ hv =>
    ⟨[], by rw [List.append_nil]; exact deriveKeysStatic_zero K junk g (by rw [hv, h]), rfl⟩

/-- C78: it refuses an empty key. -/
theorem c78_derive_keys_static_empty (K : Nat) (junk : Bytes) (g : Bytes → Bytes) (n : Nat) (hc : Clean st) (h : view st i = some ⟨none, l⟩) :
    ((deriveKeysStatic K junk g n i).run true st).2 = .exc .invalidArgument ∧ Effect st ((deriveKeysStatic K junk g n i).run true st).1 none [] :=
  effect_none (pre_deriveKeysStatic K junk g n i) hc fun a _ hv =>
    ⟨[], by rw [List.append_nil]; exact deriveKeysStatic_empty K junk g n (by rw [hv, h]), rfl⟩

/-- C78: `Prg::duplicate` makes one key with the same value. -/
theorem c78_duplicate (hc : Clean st) (h : view st i = some ⟨some v, true⟩) (hv32 : v.length = 32) :
    ((duplicate i).run true st).2 = .ok (st.objs.length + 1) ∧ Effect st ((duplicate i).run true st).1 none [(st.objs.length + 1, ⟨some v, true⟩)] :=
  effect_none (pre_duplicate i) hc fun a hl hv => ⟨_, by rw [← hl]; exact duplicate_runS (by rw [hv, h]) hv32, by rw [← hl]; rfl⟩

/-- C78: `deserialize` of `Prg`, `Cipher`, `Prp` and `Prf` makes one key. -/
theorem c78_deserialize {b : Bytes} (hc : Clean st) :
    (∀ N, N ≤ b.length → ((readPlain N b).run true st).2 = .ok (st.objs.length + 1) ∧
      Effect st ((readPlain N b).run true st).1 none [(st.objs.length + 1, ⟨some (b.take N), true⟩)]) ∧
    (32 ≤ b.length → ((readPrf b).run true st).2 = .ok (st.objs.length + 1) ∧
      Effect st ((readPrf b).run true st).1 none [(st.objs.length + 1, ⟨some (b.take 32), true⟩)]) :=
  ⟨fun N hN => effect_none (pre_readPlain hN) hc fun a hl _ => ⟨_, by rw [← hl]; exact readPlain_runS N b, by rw [← hl]; rfl⟩,
    fun hN => effect_none (pre_readPrf hN) hc fun a hl _ => ⟨_, by rw [← hl]; exact readPrf_runS b, by rw [← hl]; rfl⟩⟩

/-- C78: `generate(Key&&, seed)` of the trapdoor permutation consumes the key and leaves no object. -/
theorem c78_generate (fs : List (Bytes → Bytes)) (hc : Clean st) (h : view st i = some ⟨some v, true⟩) :
    ((tdpGenerate fs i).run true st).2 = .ok (fs.map fun f => f v) ∧ Effect st ((tdpGenerate fs i).run true st).1 (some i) [] :=
  effect_some (pre_tdpGenerate fs i) hc (by rw [h]; simp) fun a _ hv => ⟨_, tdpGenerate_runS fs (by rw [hv, h]), rfl⟩

/-! ## Walks in trees of any height -/

/-- C78: the evaluation of a leaf goes through as many keys as there are levels, and leaves none of them. -/
theorem c78_leaf (junk : Bytes) (last : Bytes → Bytes) (gs : List (Bytes → Bytes)) (hc : Clean st) (h : view st i = some ⟨some v, true⟩) :
    ((leaf junk last i gs).run true st).2 = .ok (last (gs.foldl (fun v g => g v) v)) ∧ Effect st ((leaf junk last i gs).run true st).1 none [] :=
  effect_none (pre_leaf junk last i gs) hc fun a _ hv => by
    obtain ⟨t, ht, hr⟩ := leaf_runS junk last gs (a := a) (i := i) (v := v) (by rw [hv, h])
    exact ⟨t, hr, lives_gone ht _⟩

/-- C78: the evaluation of a range of leaves leaves no key, wherever and whatever the callback throws. -/
theorem c78_range (T : Tree) (junk : Bytes) (call : Nat → Bytes → Option Exc) (height off min max : Nat) (hc : Clean st) (h : view st i = some ⟨some v, true⟩) :
    (((range T junk call height i off min max).run true st).2 = .ok () ∨
      ∃ x b e, call x b = some e ∧ ((range T junk call height i off min max).run true st).2 = .exc e) ∧
    Effect st ((range T junk call height i off min max).run true st).1 none [] := by
  obtain ⟨a, hs, hl⟩ := sim_exists st
  obtain ⟨t, r, ht, hr, hrun⟩ := range_runS T junk call height (a := a) (i := i) (v := v) off min max (by rw [hs.objs]; exact h)
  have h2 := effect_none (r := r) (new := []) (pre_range T junk call height i off min max) hc fun b hlb hv => by
    have : b = a := eq_of_obj (by rw [hl, hlb]) fun j => by rw [hv, hs.objs]; rfl
    rw [this]
    exact ⟨t, hrun, lives_gone ht _⟩
  rw [h2.1]
  exact ⟨hr, h2.2⟩

/-- C78: the keys that a constraining walk makes are those of the elements it returns, in this order; each has a value and is locked. -/
theorem c78_constrain (T : Tree) (junk : Bytes) (height smin smax min max : Nat) (hc : Clean st) (h : view st i = some ⟨some v, true⟩) :
    ∃ js : List (Nat × Bytes), ((gen T junk height i smin smax min max).run true st).2 = .ok (js.map Prod.fst) ∧
      Effect st ((gen T junk height i smin smax min max).run true st).1 none (js.map fun x => (x.1, ⟨some x.2, true⟩)) := by
  obtain ⟨a, hs, hl⟩ := sim_exists st
  obtain ⟨t, js, hm, hrun⟩ := gen_runS T junk height (a := a) (i := i) (v := v) smin smax min max (by rw [hs.objs]; exact h)
  have hx : (lives a.length t).map (fun x => (x.1, (⟨some (x.2.value.getD []), true⟩ : Spec.Obj))) = lives a.length t := by
    refine (List.map_congr_left (g := id) fun x hx => ?_).trans (List.map_id _)
    obtain ⟨w, hw⟩ := hm.full x hx
    obtain ⟨n, o⟩ := x
    simp only at hw
    rw [hw]
    rfl
  have h2 := effect_none (r := .ok js) (new := lives a.length t) (pre_gen T junk height i smin smax min max) hc fun b hlb hv => by
    have : b = a := eq_of_obj (by rw [hl, hlb]) fun j => by rw [hv, hs.objs]; rfl
    rw [this]
    exact ⟨t, hrun, rfl⟩
  refine ⟨(lives a.length t).map fun x => (x.1, x.2.value.getD []), ?_, ?_⟩
  · rw [h2.1, ← hm.nums, List.map_map]
    rfl
  · have := h2.2
    rw [← hx] at this
    rw [List.map_map]
    exact this

/-! ## Lost buffers -/

/-- C78 fails here: `Prp(Key&&)`, `Prg::derive_key` (both), and `Prg::derive_keys` of a moved-from object throw from inside the callback of `Key(callback)`, or
    after `sodium_allocarray`: the buffer has no owner. -/
theorem c78_lost_false (hc : Clean st) (h : view st i = some ⟨none, l⟩) (K n : Nat) (hn : n ≠ 0) (junk : Bytes) (g : Bytes → Bytes) :
    (((prpCtor g junk i).run true st).2 = .exc .runtimeError ∧ Lost ((prpCtor g junk i).run true st).1 st.heap.length ⟨junk, .rw, 0⟩) ∧
    (((deriveKey K junk g i).run true st).2 = .exc .runtimeError ∧ Lost ((deriveKey K junk g i).run true st).1 st.heap.length ⟨junk, .rw, 0⟩) ∧
    (((deriveKeyStatic K junk g i).run true st).2 = .exc .invalidArgument ∧
      Lost ((deriveKeyStatic K junk g i).run true st).1 st.heap.length ⟨junk, .rw, 0⟩) ∧
    (((deriveKeys K junk g n i).run true st).2 = .exc .runtimeError ∧ Lost ((deriveKeys K junk g n i).run true st).1 st.heap.length ⟨junk, .rw, 0⟩) := by
  have ho : ∃ b, st.obj i = some ⟨none, b⟩ := by
    unfold view at h
    cases ho : st.obj i with
    | none => rw [ho] at h; cases h
    | some o =>
      cases hcn : o.content with
      | none => exact ⟨o.locked, by rw [← hcn]⟩
      | some c =>
        obtain ⟨cell, hcell, -⟩ := hc.1.own i o c ho hcn
        rw [ho] at h
        simp [absObj, hcn, hcell] at h
  obtain ⟨b, ho⟩ := ho
  have hl := lost_new hc.1 junk .rw
  have e1 : (prpCtor g junk i).run true st = (st.alloc junk .rw, .exc .runtimeError) := by
    simp [prpCtor, newFilled, filled, act, bind, P.thenRes, onOk, P.run, step, ho]
  have e2 : (deriveKey K junk g i).run true st = (st.alloc junk .rw, .exc .runtimeError) := by
    simp [deriveKey, derive, newFilled, filled, act, bind, P.thenRes, onOk, P.run, step, ho]
  have e3 : (deriveKeyStatic K junk g i).run true st = (st.alloc junk .rw, .exc .invalidArgument) := by
    simp [deriveKeyStatic, deriveStatic, throw, newFilled, filled, act, P.thenRes, P.run, step, ho]
  have e4 : (deriveKeys K junk g n i).run true st = (st.alloc junk .rw, .exc .runtimeError) := by
    simp [deriveKeys, derive, cutAll, act, bind, P.thenRes, onOk, P.run, step, ho, hn]
  rw [e1, e2, e3, e4]
  exact ⟨⟨rfl, hl⟩, ⟨rfl, hl⟩, ⟨rfl, hl⟩, ⟨rfl, hl⟩⟩

theorem calls_lost {c : Nat} {cell : Cell} (p : Calls) : ∀ {st : St}, Lost st c cell → Lost (p.run st) c cell := by
  induction p with
  | done => exact fun h => h
  | call q rest ih => exact fun h => ih (lost_run q h)

/-- C78: whatever the program does afterwards, a lost buffer is never released, and never wiped. -/
theorem c78_lost_forever {c : Nat} {cell : Cell} (h : Lost st c cell) (p : Calls) : (p.run st).heap[c]? = some cell ∧ cell.frees = 0 :=
  ⟨(calls_lost p h).here, h.unreleased⟩

/-! ## Examples -/

/-- A state with a key of 32 bytes (number 0) and a moved-from key (number 1). -/
def exSt : St := ((mk 32 (.newRandom (List.replicate 32 5) []) : P Nat).run true ((mk 32 (.moveCtor 0) : P Nat).run true
  ((mk 32 (.newRandom (List.replicate 32 7) []) : P Nat).run true St.init).1).1).1

/-- Object 0 is a moved-from key, 1 and 2 are keys. -/
theorem exSt_view : view exSt 0 = some ⟨none, true⟩ ∧ view exSt 1 = some ⟨some (List.replicate 32 7), true⟩ ∧ view exSt 2 = some ⟨some (List.replicate 32 5), true⟩ ∧
    exSt.objs.length = 3 := by decide +kernel

theorem exSt_clean : Clean exSt := by
  have h1 : Effect St.init ((mk 32 (.newRandom (List.replicate 32 7) []) : P Nat).run true St.init).1 none [(0, ⟨some (List.replicate 32 7), true⟩)] :=
    (effect_none (r := .ok 0) (pre_mk (o := .newRandom (List.replicate 32 7) []) trivial) c78_start fun a hl _ =>
      ⟨[some ⟨some (List.replicate 32 7), true⟩], by rw [mk_random, hl]; rfl, by rw [hl]; rfl⟩).2
  have h2 := (c78_plain h1.clean (i := 0) (o := ⟨some (List.replicate 32 7), true⟩) (by decide +kernel)).2
  exact (effect_none (r := .ok 2) (new := [(2, ⟨some (List.replicate 32 5), true⟩)])
    (pre_mk (o := .newRandom (List.replicate 32 5) []) trivial) h2.clean fun a hl _ =>
    ⟨_, by rw [mk_random, hl]; rfl, by rw [hl]; rfl⟩).2.clean

example : ((hmacCtor 1).run true exSt).2 = .ok 3 ∧ Effect exSt ((hmacCtor 1).run true exSt).1 (some 1) [(3, ⟨some (List.replicate 32 7), true⟩)] :=
  c78_hmac exSt_clean exSt_view.2.1
example : ((hmacCtor 0).run true exSt).2 = .exc .invalidArgument := (c78_hmac_empty exSt_clean exSt_view.1).1
example : ((plainCtor 0).run true exSt).2 = .ok 3 := (c78_plain exSt_clean exSt_view.1).1
example : ((rcprfCtor 2 65).run true exSt).2 = .exc .invalidArgument ∧ Effect exSt ((rcprfCtor 2 65).run true exSt).1 (some 2) [] :=
  c78_rcprf_refused exSt_clean exSt_view.2.2.1 (.inr (by decide))
example : ((rcprfCtor 2 64).run true exSt).2 = .ok 3 := (c78_rcprf exSt_clean exSt_view.2.2.1 (by decide) (by decide)).1
example : ((elemCtor false 2 2).run true exSt).2 = .ok 3 := (c78_element exSt_clean exSt_view.2.2.1 (by decide)).1
example : Effect exSt ((elemCtor false 2 1).run true exSt).1 (some 2) [] := ((c78_element_refused exSt_clean exSt_view.2.2.1).1 (by decide)).2
example : Effect exSt ((prpCtor (fun v => v ++ v) [] 2).run true exSt).1 (some 2) [(3, ⟨some (List.replicate 64 5), true⟩)] :=
  (c78_prp _ [] exSt_clean exSt_view.2.2.1).2
example : ((prpNew (fun v => v ++ v) [] [1, 2]).run true exSt).2 = .ok 4 := (c78_prp_new _ [] [1, 2] exSt_clean).1
example : ((wrapperCtor (fun v => v ++ List.replicate 32 1) (fun v => v ++ List.replicate 32 2) [] [] [] 1).run true exSt).2 = .ok (3, 4) :=
  (c78_wrapper (fun v => by simp) (fun v => by simp) [] [] [] exSt_clean exSt_view.2.1).1
example : ((wrapperCtor (fun v => v ++ List.replicate 32 1) (fun v => v ++ List.replicate 32 2) [] [] [] 0).run true exSt).2 = .exc .invalidArgument :=
  (c78_wrapper_empty (fun v => by simp) (fun v => by simp) [] [] [] exSt_clean exSt_view.1).1
example : Effect exSt ((deriveStatic true id 1).run true exSt).1 (some 1) [] := (c78_derive_static true id exSt_clean exSt_view.2.1).2
example : ((deriveKeys 4 [] id 8 1).run true exSt).2 = .ok [4, 5, 6, 7, 8, 9, 10, 11] := (c78_derive_keys 4 [] id (by decide) exSt_clean exSt_view.2.1 (by decide)).1
example : ((deriveKeysStatic 4 [] id 8 1).run true exSt).2 = .ok [5, 6, 7, 8, 9, 10, 11, 12] :=
  (c78_derive_keys_static 4 [] id (by decide) exSt_clean exSt_view.2.1 (by decide)).1
example : view ((deriveKeysStatic 4 [] id 0 1).run true exSt).1 1 = some ⟨some (List.replicate 32 7), true⟩ :=
  ((c78_no_keys_false 4 [] id exSt_clean exSt_view.2.1).2.rest 1 (by simp) (by simp)).trans exSt_view.2.1
example : ((duplicate 2).run true exSt).2 = .ok 4 := (c78_duplicate exSt_clean exSt_view.2.2.1 (by decide)).1
example : ((readPrf (List.replicate 33 1)).run true exSt).2 = .ok 4 := ((c78_deserialize exSt_clean).2 (by decide)).1
example : ((tdpGenerate [List.reverse, List.take 2] 2).run true exSt).2 = .ok [List.replicate 32 5, [5, 5]] := (c78_generate _ exSt_clean exSt_view.2.2.1).1
example : ((leaf [] (List.take 2) 2 [fun v => 1 :: v, fun v => 9 :: v]).run true exSt).2 = .ok [9, 1] := (c78_leaf [] _ _ exSt_clean exSt_view.2.2.1).1
example : ((range ⟨fun b v => (if b then 1 else 0) :: v, fun b v => (if b then 1 else 0) :: v⟩ [] (fun x _ => if x = 5 then some .outOfRange else none) 2 2 0 3 6).run
    true exSt).2 = .exc .outOfRange := by decide +kernel
example : ((gen ⟨fun b v => (if b then 1 else 0) :: v, fun b v => (if b then 1 else 0) :: v⟩ [] 2 2 0 7 1 5).run true exSt).2 = .ok [8, 12] := by decide +kernel
example : Lost ((prpCtor id [0] 0).run true exSt).1 2 ⟨[0], .rw, 0⟩ := (c78_lost_false exSt_clean exSt_view.1 32 1 (by decide) [0] id).1.2

/-- A program: two calls that lose a buffer each, then both keys are destroyed. -/
example : let p : Calls := .call (prpCtor id [0] 0) (.call (deriveKey 32 [0] id 0) (.call (act 32 (.destroy 1)) (.call (act 32 (.destroy 2)) .done)))
    (p.run exSt).heap.map (·.frees) = [1, 1, 0, 0] := by decide +kernel

end Verif.Key.Life
