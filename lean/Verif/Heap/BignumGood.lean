/-
Every function of `src/mbedtls/bignum.c` keeps the invariant of the storage.
-/
import Verif.Heap.Scope
import Verif.Heap.Bignum

namespace Verif.Heap

variable {f : Fl} {V W N : List Nat} {x y a b n e t : Nat} {c d : Cmd}

/-! ### Automation -/

/-- An operand may be read. -/
def Rd (V W : List Nat) (o : Option Nat) : Prop := ∀ y, o = some y → y ∈ V ∨ y ∈ W

theorem Rd.none : Rd V W none := fun _ h => by cases h
theorem Rd.some (h : y ∈ V ∨ y ∈ W) : Rd V W (some y) := fun _ h' => by cases h'; exact h
theorem Rd.app {o : Option Nat} (h : Rd V W o) : Rd V (W ++ N) o :=
  fun y hy => (h y hy).imp id fun h => by simp [h]
theorem Rd.ite {P : Prop} [Decidable P] {o o' : Option Nat} (h : Rd V W o) (h' : Rd V W o') :
    Rd V W (if P then o else o') := by split <;> assumption
theorem rd_app (h : y ∈ V ∨ y ∈ W) : y ∈ V ∨ y ∈ W ++ N := h.imp id fun h => by simp [h]
theorem rd_ite {P : Prop} [Decidable P] (h : x ∈ V ∨ x ∈ W) (h' : y ∈ V ∨ y ∈ W) :
    (if P then x else y) ∈ V ∨ (if P then x else y) ∈ W := by split <;> assumption

theorem Good.ite {P : Prop} [Decidable P] (h : Good f V W c) (h' : Good f V W d) :
    Good f V W (if P then c else d) := by split <;> assumption
theorem Good.opt (h : Good f V W c) : Good f V W (opt c) := h.alt Good.skip
theorem Good.mayFail (hf : f.er = true) : Good f V W mayFail := (Good.fail hf).alt Good.skip
theorem Good.loop1 (h : Good f V W c) : Good f V W (loop1 c) := h.seq h.loop
theorem Good.getO {o : Option Nat} (h : Rd V W o) : Good f V W (getO o) := by
  cases o with
  | none => exact Good.skip
  | some y => exact Good.get (h y rfl)
theorem Good.ifSome {q : Option Nat} {c : Nat → Cmd} (h : ∀ x, q = some x → Good f V W (c x)) :
    Good f V W (ifSome q c) := by
  cases q with
  | none => exact Good.skip
  | some x => exact h x rfl

/-- Conditions of rules: membership and flags. -/
macro "good_side" : tactic => `(tactic| first
  | assumption
  | exact rd_app (by assumption)
  | exact Rd.app (by assumption)
  | exact List.mem_append_left _ (by assumption)
  | exact Or.inr (by assumption)
  | exact Or.inr (List.mem_append_left _ (by assumption))
  | with_reducible exact Rd.none
  | (simp only [List.mem_append, List.mem_cons, List.not_mem_nil, Nat.add_left_cancel_iff, or_true, true_or, or_false,
      Nat.reduceEqDiff, Nat.left_eq_add, Nat.add_eq_left, List.forall_mem_cons, List.forall_mem_nil, and_true, and_self, *]; done)
  | rfl)

/-- One rule for the program in the goal. -/
syntax "good_rule" : tactic

macro_rules | `(tactic| good_rule) => `(tactic| with_reducible apply Good.skip)
macro_rules | `(tactic| good_rule) => `(tactic| with_reducible apply Good.fail)
macro_rules | `(tactic| good_rule) => `(tactic| with_reducible apply Good.ret)
macro_rules | `(tactic| good_rule) => `(tactic| with_reducible apply Good.free)
macro_rules | `(tactic| good_rule) => `(tactic| with_reducible apply Good.grow)
macro_rules | `(tactic| good_rule) => `(tactic| with_reducible apply Good.shrink)
macro_rules | `(tactic| good_rule) => `(tactic| with_reducible apply Good.get)
macro_rules | `(tactic| good_rule) => `(tactic| with_reducible apply Good.setW)
macro_rules | `(tactic| good_rule) => `(tactic| with_reducible apply Good.swap)
macro_rules | `(tactic| good_rule) => `(tactic| with_reducible apply Good.seq)
macro_rules | `(tactic| good_rule) => `(tactic| with_reducible apply Good.alt)
macro_rules | `(tactic| good_rule) => `(tactic| with_reducible apply Good.ifNull)
macro_rules | `(tactic| good_rule) => `(tactic| with_reducible apply Good.loop)
macro_rules | `(tactic| good_rule) => `(tactic| with_reducible apply Good.ite)
macro_rules | `(tactic| good_rule) => `(tactic| with_reducible apply Good.opt)
macro_rules | `(tactic| good_rule) => `(tactic| with_reducible apply Good.mayFail)
macro_rules | `(tactic| good_rule) => `(tactic| with_reducible apply Good.loop1)
macro_rules | `(tactic| good_rule) => `(tactic| with_reducible apply Good.getO)
macro_rules | `(tactic| good_rule) => `(tactic| with_reducible apply Good.freeAll)
macro_rules | `(tactic| good_rule) => `(tactic| with_reducible apply Rd.some)

macro "good" : tactic => `(tactic| repeat' (first | with_reducible assumption | good_rule | good_side))

/-- A local of a scope of `k` structures. -/
macro "locs" : tactic => `(tactic| (intro b x; simp only [List.mem_cons, List.not_mem_nil, or_false]; omega))

/-! ### The functions -/

theorem copy_good (he : f.er = true) (hx : x ∈ W) (hy : y ∈ V ∨ y ∈ W) : Good f V W (copy x y) := by
  unfold copy; good
macro_rules | `(tactic| good_rule) => `(tactic| with_reducible apply copy_good)

theorem copyO_good {o : Option Nat} (he : f.er = true) (hx : x ∈ W) (ho : Rd V W o) : Good f V W (copyO x o) := by
  cases o with
  | none => unfold copyO; good
  | some y => have := ho y rfl; unfold copyO; good
macro_rules | `(tactic| good_rule) => `(tactic| with_reducible apply copyO_good)

theorem condAssign_good (he : f.er = true) (hx : x ∈ W) (hy : y ∈ V ∨ y ∈ W) : Good f V W (condAssign x y) := by
  unfold condAssign; good

theorem condSwap_good (he : f.er = true) (hx : x ∈ W) (hy : y ∈ W) : Good f V W (condSwap x y) := by
  unfold condSwap; good

theorem lset_good (he : f.er = true) (hx : x ∈ W) : Good f V W (lset x) := by
  unfold lset; good
macro_rules | `(tactic| good_rule) => `(tactic| with_reducible apply lset_good)

theorem look_good (hx : x ∈ V ∨ x ∈ W) : Good f V W (look x) := by
  unfold look; good
macro_rules | `(tactic| good_rule) => `(tactic| with_reducible apply look_good)

theorem setBit_good (he : f.er = true) (hx : x ∈ W) : Good f V W (setBit x) := by
  unfold setBit; good
macro_rules | `(tactic| good_rule) => `(tactic| with_reducible apply setBit_good)

theorem readBinary_good (he : f.er = true) (hx : x ∈ W) : Good f V W (readBinary x) := by
  unfold readBinary; good
macro_rules | `(tactic| good_rule) => `(tactic| with_reducible apply readBinary_good)

theorem writeBinary_good (he : f.er = true) (hx : x ∈ V ∨ x ∈ W) : Good f V W (writeBinary x) := by
  unfold writeBinary; good
macro_rules | `(tactic| good_rule) => `(tactic| with_reducible apply writeBinary_good)

theorem shiftL_good (he : f.er = true) (hx : x ∈ W) : Good f V W (shiftL x) := by
  unfold shiftL; good
macro_rules | `(tactic| good_rule) => `(tactic| with_reducible apply shiftL_good)

theorem shiftR_good (he : f.er = true) (hx : x ∈ W) : Good f V W (shiftR x) := by
  unfold shiftR; good
macro_rules | `(tactic| good_rule) => `(tactic| with_reducible apply shiftR_good)

theorem cmp_good {a b : Option Nat} (ha : Rd V W a) (hb : Rd V W b) : Good f V W (cmp a b) := by
  unfold cmp; good
macro_rules | `(tactic| good_rule) => `(tactic| with_reducible apply cmp_good)

theorem addAbs_good {a b : Option Nat} (he : f.er = true) (hx : x ∈ W) (ha : Rd V W a) (hb : Rd V W b) :
    Good f V W (addAbs x a b) := by
  unfold addAbs addAbs'; good
macro_rules | `(tactic| good_rule) => `(tactic| with_reducible apply addAbs_good)

theorem subAbs_good {a b : Option Nat} (he : f.er = true) (hx : x ∈ W) (ha : Rd V W a) (hb : Rd V W b) :
    Good f V W (subAbs x a b) := by
  unfold subAbs
  refine (cmp_good ha hb).seq ((Good.mayFail he).seq ?_)
  refine Good.locals (N := fun t => [t]) (by locs) fun t ht => ?_
  refine Scoped.cleanup he (N1 := [t]) (fun _ h => h) (Body.main ?_) (nulling_freeAll _ (by simp))
  have h1 : Rd V (W ++ [t]) (if b = some x then some t else b) := Rd.ite (Rd.some (by simp)) hb.app
  good
macro_rules | `(tactic| good_rule) => `(tactic| with_reducible apply subAbs_good)

theorem addMpi_good {a b : Option Nat} (he : f.er = true) (hx : x ∈ W) (ha : Rd V W a) (hb : Rd V W b) :
    Good f V W (addMpi x a b) := by
  unfold addMpi; good
macro_rules | `(tactic| good_rule) => `(tactic| with_reducible apply addMpi_good)

theorem subMpi_good {a b : Option Nat} (he : f.er = true) (hx : x ∈ W) (ha : Rd V W a) (hb : Rd V W b) :
    Good f V W (subMpi x a b) := by
  unfold subMpi; good
macro_rules | `(tactic| good_rule) => `(tactic| with_reducible apply subMpi_good)

theorem addInt_good (he : f.er = true) (hx : x ∈ W) (ha : a ∈ V ∨ a ∈ W) : Good f V W (addInt x a) := by
  unfold addInt; good
macro_rules | `(tactic| good_rule) => `(tactic| with_reducible apply addInt_good)

theorem subInt_good (he : f.er = true) (hx : x ∈ W) (ha : a ∈ V ∨ a ∈ W) : Good f V W (subInt x a) := by
  unfold subInt; good
macro_rules | `(tactic| good_rule) => `(tactic| with_reducible apply subInt_good)

theorem mulMpi_good {a b : Option Nat} (he : f.er = true) (hx : x ∈ W) (ha : Rd V W a) (hb : Rd V W b) :
    Good f V W (mulMpi x a b) := by
  unfold mulMpi
  refine Good.locals (N := fun s => [s, s + 1]) (by locs) fun s hs => ?_
  refine Scoped.cleanup he (N1 := [s, s + 1]) (fun _ h => h) (Body.main ?_)
    ((nulling_freeAll [s + 1, s] (by simp)).sub (by simp))
  have h1 : Rd V (W ++ [s, s + 1]) (if a = some x then some s else a) := Rd.ite (Rd.some (by simp)) ha.app
  have h2 : Rd V (W ++ [s, s + 1]) (if b = some x then some (s + 1) else b) := Rd.ite (Rd.some (by simp)) hb.app
  good
macro_rules | `(tactic| good_rule) => `(tactic| with_reducible apply mulMpi_good)

theorem mulInt_good (he : f.er = true) (hx : x ∈ W) (ha : a ∈ V ∨ a ∈ W) : Good f V W (mulInt x a) := by
  unfold mulInt; good
macro_rules | `(tactic| good_rule) => `(tactic| with_reducible apply mulInt_good)

theorem divMpi_good {q r b : Option Nat} (he : f.er = true) (hq : ∀ x, q = some x → x ∈ W)
    (hr : ∀ x, r = some x → x ∈ W) (ha : a ∈ V ∨ a ∈ W) (hb : Rd V W b) : Good f V W (divMpi q r a b) := by
  unfold divMpi
  refine Good.fn ((Good.getO hb).seq (((Good.ret rfl).alt Good.skip).seq ?_)) he
  refine Good.locals (N := fun s => [s, s + 1, s + 2, s + 3, s + 4]) (by locs) fun s hs => ?_
  refine Scoped.cleanup he (N1 := [s, s + 1, s + 2, s + 3, s + 4]) (fun _ h => h) (Body.pre ?_ (Body.main ?_))
    (nulling_freeAll _ (by simp))
  · have h1 : Good { f with r := fun _ => true } V W (ifSome q lset) := Good.ifSome fun x hx => by
      have := hq x hx; good
    have h2 : Good { f with r := fun _ => true } V W (ifSome r fun r => copy r a) := Good.ifSome fun x hx => by
      have := hr x hx; good
    good
  · unfold divMain
    have h1 : Good { f with r := fun _ => false } V (W ++ [s, s + 1, s + 2, s + 3, s + 4])
        (ifSome q fun q => copy q (s + 2)) := Good.ifSome fun x hx => by
      have := hq x hx; good
    have h2 : Good { f with r := fun _ => false } V (W ++ [s, s + 1, s + 2, s + 3, s + 4])
        (ifSome r fun r => shiftR s ;; copy r s ;; get r) := Good.ifSome fun x hx => by
      have := hr x hx; good
    good
macro_rules | `(tactic| good_rule) => `(tactic| with_reducible apply divMpi_good)

theorem wr_none : ∀ x, (none : Option Nat) = some x → x ∈ W := fun _ h => by cases h
theorem wr_some (h : y ∈ W) : ∀ x, some y = some x → x ∈ W := fun _ h' => by cases h'; exact h
macro_rules | `(tactic| good_rule) => `(tactic| with_reducible exact wr_none)
macro_rules | `(tactic| good_rule) => `(tactic| with_reducible refine wr_some ?_)

theorem divInt_good {q r : Option Nat} (he : f.er = true) (hq : ∀ x, q = some x → x ∈ W)
    (hr : ∀ x, r = some x → x ∈ W) (ha : a ∈ V ∨ a ∈ W) : Good f V W (divInt q r a) := by
  unfold divInt; good
macro_rules | `(tactic| good_rule) => `(tactic| with_reducible apply divInt_good)

theorem modMpi_good (he : f.er = true) (hx : x ∈ W) (ha : a ∈ V ∨ a ∈ W) (hb : b ∈ V ∨ b ∈ W) :
    Good f V W (modMpi x a b) := by
  unfold modMpi; good
macro_rules | `(tactic| good_rule) => `(tactic| with_reducible apply modMpi_good)

theorem modInt_good (he : f.er = true) (ha : a ∈ V ∨ a ∈ W) : Good f V W (modInt a) := by
  unfold modInt; good
macro_rules | `(tactic| good_rule) => `(tactic| with_reducible apply modInt_good)

theorem readString_good (he : f.er = true) (hx : x ∈ W) : Good f V W (readString x) := by
  unfold readString
  refine Good.fn (((Good.ret rfl).alt Good.skip).seq ?_) he
  refine Good.locals (N := fun t => [t]) (by locs) fun t ht => ?_
  refine Scoped.cleanup he (N1 := [t]) (fun _ h => h) (Body.pre ((Good.ret rfl).alt Good.skip) (Body.main ?_))
    (nulling_freeAll _ (by simp))
  good

theorem writeHlp_good (he : f.er = true) (hx : x ∈ W) : Good f V W (writeHlp x) := by
  unfold writeHlp; good
macro_rules | `(tactic| good_rule) => `(tactic| with_reducible apply writeHlp_good)

theorem writeString_good (he : f.er = true) (hx : x ∈ V ∨ x ∈ W) : Good f V W (writeString x) := by
  unfold writeString
  refine (Good.mayFail he).seq ((look_good hx).seq ((Good.mayFail he).seq ?_))
  refine Good.locals (N := fun t => [t]) (by locs) fun t ht => ?_
  refine Scoped.cleanup he (N1 := [t]) (fun _ h => h) (Body.main ?_) (nulling_freeAll _ (by simp))
  good

theorem montmul_good {o : Option Nat} (he : f.er = true) (ha : a ∈ W) (ho : Rd V W o) (hn : n ∈ V ∨ n ∈ W) (ht : t ∈ W) :
    Good f V W (montmul a o n t) := by
  unfold montmul; good
macro_rules | `(tactic| good_rule) => `(tactic| with_reducible apply montmul_good)

theorem gcd_good (he : f.er = true) (hx : x ∈ W) (ha : a ∈ V ∨ a ∈ W) (hb : b ∈ V ∨ b ∈ W) :
    Good f V W (gcd x a b) := by
  unfold gcd
  refine Good.locals (N := fun s => [s, s + 1, s + 2]) (by locs) fun s hs => ?_
  refine Scoped.cleanup he (N1 := [s, s + 1, s + 2]) (fun _ h => h) (Body.main ?_) (nulling_freeAll _ (by simp))
  good
macro_rules | `(tactic| good_rule) => `(tactic| with_reducible apply gcd_good)

theorem fillRandom_good (he : f.er = true) (hx : x ∈ W) : Good f V W (fillRandom x) := by
  unfold fillRandom; good
macro_rules | `(tactic| good_rule) => `(tactic| with_reducible apply fillRandom_good)

theorem invMod_good (he : f.er = true) (hx : x ∈ W) (ha : a ∈ V ∨ a ∈ W) (hn : n ∈ V ∨ n ∈ W) :
    Good f V W (invMod x a n) := by
  unfold invMod
  refine (Good.get hn).seq ((Good.mayFail he).seq ?_)
  refine Good.locals (N := fun s => [s, s + 1, s + 2, s + 3, s + 4, s + 5, s + 6, s + 7, s + 8]) (by locs) fun s hs => ?_
  refine Scoped.cleanup he (N1 := [s, s + 1, s + 2, s + 3, s + 4, s + 5, s + 6, s + 7, s + 8]) (fun _ h => h)
    (Body.main ?_) (nulling_freeAll _ (by simp))
  unfold invMain
  good
macro_rules | `(tactic| good_rule) => `(tactic| with_reducible apply invMod_good)

theorem checkSmall_good (he : f.er = true) (ha : a ∈ V ∨ a ∈ W) : Good f V W (checkSmall a) := by
  unfold checkSmall; good
macro_rules | `(tactic| good_rule) => `(tactic| with_reducible apply checkSmall_good)

/-! ### Exponentiation -/

theorem expPre_good {ap w : Nat} {neg : Bool} (he : f.er = true) (hx : x ∈ W) (ha : a ∈ V ∨ a ∈ W) (hn : n ∈ V ∨ n ∈ W)
    (ht : t ∈ W) (hap : ap ∈ W) (hw : w + 1 ∈ W) : Good f V W (expPre x a n t ap w neg) := by
  unfold expPre; good

theorem expRR_good {rr : Nat} (he : f.er = true) (hx : rr ∈ W) (hn : n ∈ V ∨ n ∈ W) : Good f V W (expRR rr n) := by
  unfold expRR; good

theorem expPost_good {rr w ws : Nat} {neg : Bool} (hf : f.er = true) (hx : x ∈ W) (ha : a ∈ V ∨ a ∈ W)
    (he : e ∈ V ∨ e ∈ W) (hn : n ∈ V ∨ n ∈ W) (hr : rr ∈ V ∨ rr ∈ W) (ht : t ∈ W) (hw : w + 1 ∈ W)
    (hws : ∀ i, i < 2 ^ (ws - 1) → w + 2 ^ (ws - 1) + i ∈ W) : Good f V W (expPost x a e n rr t w ws neg) := by
  have h0 : w + 2 ^ (ws - 1) ∈ W := hws 0 (Nat.pos_of_ne_zero (by simp))
  have h1 : Good f V W (seqL ((List.range (2 ^ (ws - 1) - 1)).map fun i =>
      grow (w + 2 ^ (ws - 1) + i + 1) ;; copy (w + 2 ^ (ws - 1) + i + 1) (w + 2 ^ (ws - 1) + i) ;;
        montmul (w + 2 ^ (ws - 1) + i + 1) (some (w + 1)) n t)) := by
    refine Good.seqL fun c hc => ?_
    obtain ⟨i, hi, rfl⟩ := List.mem_map.1 hc
    have hi := List.mem_range.1 hi
    have k1 := hws i (by omega)
    have k2 : w + 2 ^ (ws - 1) + i + 1 ∈ W := hws (i + 1) (by omega)
    good
  have h2 : Good f V W (altL ((List.range (2 ^ (ws - 1))).map fun i => montmul x (some (w + 2 ^ (ws - 1) + i)) n t)) := by
    refine Good.altL fun c hc => ?_
    obtain ⟨i, hi, rfl⟩ := List.mem_map.1 hc
    have k1 := hws i (List.mem_range.1 hi)
    good
  unfold expPost
  good

end Verif.Heap
