import Verif.Aez.ModelTrace
import Mathlib.Logic.Function.Iterate
import Mathlib.Data.List.Forall2

/-!
# What an observer of branches and addresses learns from AEZ
-/

namespace Verif.Aez.Traced

open Verif Verif.Aez Verif.Aez.Aead Verif.Trace Verif.Trace.T

/-! ## The events do not change the results -/

theorem ifT_res {A α : Type} {c : Prop} [Decidable c] (a b : T A α) : (ifT c a b).res = if c then a.res else b.res := rfl

theorem loopT_res {A α : Type} (f : Nat → α → T A α) (n : Nat) (s : α) : (loopT f n s).res = loopN (fun k s => (f k s).res) n s := by
  induction n with
  | zero => rfl
  | succ n ih => simp only [loopT, loopN, bind_res, ih]

theorem forT_res {A α : Type} (f : Nat → α → T A α) (n : Nat) (s : α) : (forT f n s).res = loopN (fun k s => (f k s).res) n s := by
  have h : ∀ n, (iterT f n s).res = loopN (fun k s => (f k s).res) n s := by
    intro n
    induction n with
    | zero => rfl
    | succ n ih => simp only [iterT, loopN, bind_res, ih]
  simp only [forT, bind_res, h]
  exact bind_pure (m := Res) _

theorem ldST_res (al : Bool) (m : Mem) (off : Nat) : (ldST al m off).res = ldS al m off := by cases al <;> rfl

/-- `load_partial` byte by byte. -/
theorem ldPart_loop (b : Buf) (r : Reg) (off n : Nat) (h : off ≤ b.size) :
    loopN (fun i tmp => (do let v ← rdB b r (off + i); setB tmp i v : M Block).res) n bzero = ldPart b off n := by
  induction n with
  | zero =>
    simp only [loopN, ldPart, Nat.add_zero, h, Nat.zero_le, and_self, if_true, Nat.not_lt_zero, if_false]
    rfl
  | succ n ih =>
    rw [loopN, ih]
    unfold ldPart
    by_cases h1 : off + n ≤ b.size ∧ n ≤ 16
    · rw [if_pos h1]
      simp only [Res.bind_ok, bind_res, rdB, setB]
      by_cases h2 : off + n < b.size
      · rw [if_pos h2]
        simp only [Res.bind_ok]
        by_cases h3 : n < 16
        · rw [if_pos h3, if_pos (by omega)]
          congr 1
          funext j
          by_cases h4 : j.1 = n
          · rw [if_pos h4, if_pos (by omega), h4]
          · rw [if_neg h4]
            by_cases h5 : j.1 < n
            · rw [if_pos h5, if_pos (by omega)]
            · rw [if_neg h5, if_neg (by omega)]
        · rw [if_neg h3, if_neg (by omega)]
      · rw [if_neg h2, if_neg (by omega)]; rfl
    · rw [if_neg h1, if_neg (by omega)]; rfl

theorem ldPartT_res (b : Buf) (r : Reg) (off n : Nat) : (ldPartT b r off n).res = ldPart b off n := by
  unfold ldPartT
  by_cases h : off ≤ b.size
  · simp only [bind_res, ptr, if_pos h, Res.bind_ok, forT_res]
    have := ldPart_loop b r off n h
    simpa only [bind_res] using this
  · simp only [bind_res, ptr, if_neg h]
    rw [ldPart, if_neg (by omega)]; rfl

theorem ldPartST_res (al : Bool) (m : Mem) (off n : Nat) : (ldPartST al m off n).res = ldPart (if al then m.dst else m.src) off n := by
  cases al <;> exact ldPartT_res ..

theorem zeroPadT_res (x : Block) (n : Nat) : (zeroPadT x n).res = zeroPad x n := by
  simp only [zeroPadT, bind_res, zeroPad, rdPad, rdT, pure_res, map_eq_pure_bind, Res.pure_eq]

theorem oneZeroPadT_res (x : Block) (n : Nat) : (oneZeroPadT x n).res = oneZeroPad x n := by
  simp only [oneZeroPadT, bind_res, oneZeroPad, rdPad, rdT, pure_res, Res.pure_eq]

/-- A block stored byte by byte. -/
theorem stBytes_loop (m : Mem) (off n : Nat) (x : Block) (h : off ≤ m.dst.size) :
    loopN (fun i m => (do let v ← getB x i; stB m (off + i) v : M Mem).res) n m = stBytes m off n x := by
  induction n with
  | zero =>
    simp only [loopN, stBytes, Nat.add_zero, h, Nat.zero_le, and_self, if_true]
    congr 1
    show (⟨m.src, ⟨m.dst.size, m.dst.data⟩⟩ : Mem) = _
    congr 2
    funext i
    rw [dif_neg (by omega)]
  | succ n ih =>
    rw [loopN, ih]
    unfold stBytes
    by_cases h1 : off + n ≤ m.dst.size ∧ n ≤ 16
    · rw [if_pos h1]
      simp only [Res.bind_ok, bind_res, getB, stB]
      by_cases h3 : n < 16
      · rw [dif_pos h3]
        simp only [Res.bind_ok]
        by_cases h2 : off + n < m.dst.size
        · rw [if_pos h2, if_pos (by omega)]
          congr 2
          congr 1
          funext i
          by_cases h4 : i = off + n
          · rw [if_pos h4, dif_pos (by omega)]
            congr 1
            apply Fin.ext
            show n = i - off
            omega
          · rw [if_neg h4]
            by_cases h5 : off ≤ i ∧ i < off + n ∧ i < off + 16
            · rw [dif_pos h5, dif_pos (by omega)]
            · rw [dif_neg h5, dif_neg (by omega)]
        · rw [if_neg h2, if_neg (by omega)]
      · rw [dif_neg h3, if_neg (by omega)]; rfl
    · rw [if_neg h1, if_neg (by omega)]; rfl

theorem stBytesT_res (m : Mem) (off n : Nat) (x : Block) : (stBytesT m off n x).res = stBytes m off n x := by
  unfold stBytesT
  by_cases h : off ≤ m.dst.size
  · simp only [bind_res, ptr, if_pos h, Res.bind_ok, forT_res]
    have := stBytes_loop m off n x h
    simpa only [bind_res] using this
  · simp only [bind_res, ptr, if_neg h]
    rw [stBytes, if_neg (by omega)]; rfl

theorem tinyWrite_loop (m : Mem) (buf : Buf) (n : Nat) :
    loopN (fun i m => (do let v ← rdB buf .loc i; stB m i v : M Mem).res) n m = Prod.fst <$> tinyWrite m buf n := by
  induction n with
  | zero =>
    simp only [loopN, tinyWrite, Nat.zero_le, and_self, if_true, Nat.not_lt_zero, if_false, Res.map_ok]
  | succ n ih =>
    rw [loopN, ih]
    unfold tinyWrite
    by_cases h1 : n ≤ m.dst.size ∧ n ≤ buf.size
    · rw [if_pos h1]
      simp only [Res.bind_ok, bind_res, rdB, stB, Res.map_ok]
      by_cases h3 : n < buf.size
      · rw [if_pos h3]
        simp only [Res.bind_ok]
        by_cases h2 : n < m.dst.size
        · rw [if_pos h2, if_pos (by omega)]
          simp only [Res.map_ok]
          congr 2
          congr 1
          funext i
          by_cases h4 : i = n
          · rw [if_pos h4, if_pos (by omega), h4]
          · rw [if_neg h4]
            by_cases h5 : i < n
            · rw [if_pos h5, if_pos (by omega)]
            · rw [if_neg h5, if_neg (by omega)]
        · rw [if_neg h2, if_neg (by omega)]; rfl
      · rw [if_neg h3, if_neg (by omega)]; rfl
    · rw [if_neg h1, if_neg (by omega)]; rfl

theorem tinyWriteT_res (m : Mem) (buf : Buf) (n : Nat) : (tinyWriteT m buf n).res = tinyWrite m buf n := by
  have := tinyWrite_loop m buf n
  simp only [bind_res] at this
  simp only [tinyWriteT, bind_res, forT_res, this, pure_res]
  unfold tinyWrite
  split <;> rfl

section
variable (R : Block → Block)

theorem hashNT_res (c : Ctx) (nonce : Buf) (nb a : Nat) : (hashNT R c nonce nb a).res = hashN R c nonce nb a := by
  unfold hashNT hashN
  dsimp only
  generalize bswap (dbl (bswap c.J2)) = j8
  generalize bswap (dbl (bswap c.L)) = l2
  generalize bswap (dbl (dbl (bswap c.L))) = l4
  generalize aes4 R (bx (bx c.L j8) (zeroSetByte (UInt8.ofNat (8 * a)) 15)) c.J0 c.I0 c.L (bx c.L j8) = s1
  generalize subU 16 nb = k
  rw [bind_res, ifT_res]
  by_cases h : nb = 16
  · rw [if_pos h, pure_res, Res.bind_ok, bind_res, ldPartT_res, if_pos h]
    congr 1
    funext p
    rw [bind_res, oneZeroPadT_res]
    congr 1
  · rw [if_neg h, pure_res, Res.bind_ok, bind_res, ldPartT_res, if_neg h]
    congr 1
    funext p
    rw [bind_res, oneZeroPadT_res]
    congr 1

theorem groups_tests (c : Ctx) (bytes : Nat) : groups c bytes = (tests c bytes).filterMap id := by
  simp only [groups, tailGroups, tests, List.filterMap_append, List.filterMap_map, Function.comp_def, id]
  congr 1
  · simp
  · by_cases h1 : bytes % 256 ≥ 128 <;> simp only [h1, if_true, if_false, List.filterMap_cons, List.filterMap_nil]
    · by_cases h2 : bytes % 256 - 128 ≥ 64 <;> simp only [h2, if_true, if_false]
      · by_cases h3 : bytes % 256 - 128 - 64 ≠ 0 <;> simp [h3]
      · by_cases h3 : bytes % 256 - 128 ≠ 0 <;> simp [h3]
    · by_cases h2 : bytes % 256 ≥ 64 <;> simp only [h2, if_true, if_false]
      · by_cases h3 : bytes % 256 - 64 ≠ 0 <;> simp [h3]
      · by_cases h3 : bytes % 256 ≠ 0 <;> simp [h3]

theorem runTests_res {σ : Type} (f : Group → σ → M σ) (ts : List (Option Group)) (s : σ) :
    (runTests f ts s).res = runGroups (fun g s => (f g s).res) (ts.filterMap id) s := by
  induction ts generalizing s with
  | nil => rfl
  | cons t ts ih =>
    cases t with
    | none => exact ih s
    | some g =>
      simp only [runTests, bind_res, List.filterMap_cons, id, runGroups]
      congr 1
      funext a
      exact ih a

theorem runGroups_congr {σ : Type} {f g : Group → σ → Res σ} (h : ∀ a s, f a s = g a s) (l : List Group) (s : σ) :
    runGroups f l s = runGroups g l s := by rw [show f = g from funext fun a => funext fun s => h a s]

theorem loopN_congr {σ : Type} {f g : Nat → σ → Res σ} (h : ∀ a s, f a s = g a s) (n : Nat) (s : σ) : loopN f n s = loopN g n s := by
  rw [show f = g from funext fun a => funext fun s => h a s]

theorem passOneT_res (c : Ctx) (al : Bool) (bytes : Nat) (m : Mem) : (passOneT R c al bytes m).res = passOne R c al bytes m := by
  simp only [passOneT, passOne, runTests_res, groups_tests]
  refine runGroups_congr (fun g s => ?_) _ _
  simp only [oneGroupT, oneGroup, bind_res, loopT_res]
  simp only [oneAT, oneBT, bind_res, ldST_res, stDT, rdT, pure_res]
  rfl

theorem passTwoT_res (c : Ctx) (s : Block) (bytes : Nat) (m : Mem) : (passTwoT R c s bytes m).res = passTwo R c s bytes m := by
  simp only [passTwoT, passTwo, runTests_res, groups_tests]
  refine runGroups_congr (fun g s => ?_) _ _
  simp only [twoGroupT, twoGroup, bind_res, loopT_res]
  simp only [twoAT, twoBT, twoCT, bind_res, stDT, rdT, pure_res]
  rfl

theorem coreFragT_res (c : Ctx) (al : Bool) (m : Mem) (i f : Nat) (x : Block) : (coreFragT R c al m i f x).res = coreFrag R c al m i f x := by
  simp only [coreFragT, coreFrag, ifT_res, bind_res, ldST_res, oneZeroPadT_res, pure_res, Res.pure_eq]

theorem coreFragOutT_res (c : Ctx) (m : Mem) (s f0 f1 : Block) (i f : Nat) (y : Block) :
    (coreFragOutT R c m s f0 f1 i f y).res = coreFragOut R c m s f0 f1 i f y := by
  simp only [coreFragOutT, coreFragOut, ifT_res, bind_res, stDT, oneZeroPadT_res, pure_res, Res.pure_eq]

theorem lastBlockT_res (al d : Bool) (m : Mem) (b a : Nat) : (lastBlockT al d m b a).res = lastBlock al d m b a := by
  simp only [lastBlockT, lastBlock, ifT_res, bind_res, ldST_res, zeroPadT_res]
  cases d <;> by_cases h : a = 0 <;> simp [h]

theorem lastStoreT_res (d : Bool) (m : Mem) (b a : Nat) (x : Block) : (lastStoreT d m b a x).res = lastStore d m b a x := by
  simp only [lastStoreT, lastStore, ifT_res, stBytesT_res, stDT]
  cases d <;> by_cases h : a = 0 <;> simp [h]

theorem coreT_res (c : Ctx) (t : Block) (d al : Bool) (b a : Nat) (m : Mem) : (coreT R c t d al b a m).res = coreA R c t d al b a m := by
  cases d
  · simp only [coreT, coreA, coreTailT, ifT_res, bind_res, pure_res, passOneT_res, passTwoT_res, coreFragT_res, coreFragOutT_res, ldST_res, lastBlockT_res,
      lastStoreT_res, ctxI, ctxJ, stDT, tagOk, Res.pure_eq, Res.bind_ok, if_true, if_false, Bool.false_eq_true, Bool.not_false, Bool.true_eq_false]
  · simp only [coreT, coreA, coreTailT, ifT_res, bind_res, pure_res, passOneT_res, passTwoT_res, coreFragT_res, coreFragOutT_res, ldST_res, lastBlockT_res,
      lastStoreT_res, ctxI, ctxJ, stDT, tagOk, Res.pure_eq, Res.bind_ok, if_true, if_false, Bool.false_eq_true, Bool.not_true, Bool.true_eq_false, rdPad, rdT,
      map_eq_pure_bind, bind_assoc]

theorem tinyLoadT_res (al : Bool) (b : Nat) (m : Mem) : (tinyLoadT al b m).res = tinyLoad al b m := by
  simp only [tinyLoadT, ifT_res, bind_res, ldST_res, ldPartST_res, zeroPadT_res, pure_res, tinyLoad, tinyLoadFrom, tinyBuf0, tinyBuf1]
  by_cases h : b ≥ 16
  · simp only [h, if_true, Res.pure_eq, mkBuf, bind_assoc]
    cases al <;> rfl
  · simp only [h, if_false, Res.pure_eq, mkBuf, bind_assoc, Res.bind_ok]

theorem feistel_iterate (c : Ctx) (t ff m10 one : Block) (n : Nat) (rc : Block) (lr : Block × Block) :
    feistel R c t ff m10 one n rc lr = ((feistelStep R c t ff m10 one)^[n] (rc, lr)).2 := by
  induction n generalizing rc lr with
  | zero => rfl
  | succ n ih =>
    obtain ⟨l, r⟩ := lr
    rw [Function.iterate_succ_apply, feistel, ih]
    rfl

theorem feistelT_res (c : Ctx) (t ff m10 one : Block) (n : Nat) (s : Block × Block × Block) :
    (feistelT R c t ff m10 one n s).res = .ok ((feistelStep R c t ff m10 one)^[n] s) := by
  simp only [feistelT, forT_res, pure_res]
  induction n with
  | zero => rfl
  | succ n ih => rw [loopN, ih, Function.iterate_succ_apply']; rfl

theorem tinyHalvesT_res (b : Nat) (buf : Buf) :
    (tinyHalvesT b buf).res = (do let r ← tinyRight b buf; let ms ← tinyMasks b; pure (r, ms.1, ms.2)) := by
  simp only [tinyHalvesT, bind_res, ifT_res, pure_res, rdPad, rdT, tinyRight, tinyMasks, Res.pure_eq, bind_assoc, Res.bind_ok]
  by_cases h : b % 2 = 1
  · simp only [if_pos h, Res.bind_ok]
  · simp only [if_neg h, Res.bind_ok]

theorem tinyRoundsT_res (c : Ctx) (t : Block) (b : Nat) : (tinyRoundsT c t b).res = .ok (tinyTweak c t b, rounds b) := by
  simp only [tinyRoundsT, ifT_res, pure_res, tinyTweak, rounds]
  split
  · rfl
  · split
    · rfl
    · split <;> rfl

theorem topBitT_res (c : Ctx) (t x : Block) : (topBitT R c t x).res = topBit R c t x := by
  simp only [topBitT, bind_res, pure_res, rdPad, rdT, topBit, Res.pure_eq]
  cases ld Aez.pad 32 <;> rfl

theorem tinyLeftT_res (c : Ctx) (t : Block) (d : Bool) (b : Nat) (l : Block) : (tinyLeftT R c t d b l).res = tinyLeft R c t d b l := by
  simp only [tinyLeftT, ifT_res, bind_res, topBitT_res, pure_res, tinyLeft, Res.pure_eq]
  cases d <;> by_cases h : b < 16 <;> simp [h]

theorem tinyJoinT_res (b : Nat) (buf : Buf) (l r : Block) : (tinyJoinT b buf l r).res = tinyJoin b buf l r := by
  simp only [tinyJoinT, bind_res, ifT_res, stL, rdT, pure_res, tinyJoin]
  by_cases h : b % 2 = 1
  · simp only [if_pos h, bind_assoc, Res.bind_ok]
  · simp only [if_neg h, Res.bind_ok]

theorem tinyTagT_res (buf : Buf) (b a : Nat) : (tinyTagT buf b a).res = tinyTag buf b a := by
  simp only [tinyTagT, ifT_res, rdT, ldPartT_res, tinyTag]

theorem tinyFinishT_res (c : Ctx) (t : Block) (b : Nat) (buf : Buf) : (tinyFinishT R c t b buf).res = tinyFinish R c t false b buf := by
  simp only [tinyFinishT, ifT_res, bind_res, rdT, zeroPadT_res, topBitT_res, stL, pure_res, tinyFinish, true_and, Res.pure_eq]

theorem tinyT_res (c : Ctx) (t : Block) (d al : Bool) (b a : Nat) (m : Mem) : (tinyT R c t d al b a m).res = tinyA R c t d al b a m := by
  cases d
  · simp only [tinyT, tinyA, bind_res, tinyLoadT_res, ifT_res, pure_res, rdT, tinyHalvesT_res, tinyRoundsT_res, tinyLeftT_res, feistelT_res, tinyJoinT_res,
      tinyFinishT_res, tinyWriteT_res, feistel_iterate, Res.pure_eq, Res.bind_ok, if_true, if_false, Bool.false_eq_true, bind_assoc]
  · simp only [tinyT, tinyA, bind_res, tinyLoadT_res, ifT_res, pure_res, rdT, tinyHalvesT_res, tinyRoundsT_res, tinyLeftT_res, feistelT_res, tinyJoinT_res,
      tinyTagT_res, tinyWriteT_res, feistel_iterate, Res.pure_eq, Res.bind_ok, if_true, if_false, Bool.true_eq_false, bind_assoc]

/-- **C87** (refinement). -/
theorem c87_refines (c : Ctx) (nonce : Buf) (nb a : Nat) (al : Bool) (b : Nat) (m : Mem) :
    (encT R c nonce nb a al b m).res = enc R c nonce nb a al b m ∧ (decT R c nonce nb a al b m).res = dec R c nonce nb a al b m := by
  constructor
  · simp only [encT, enc, bind_res, hashNT_res, ifT_res, stBytesT_res, tinyT_res, coreT_res, pure_res, map_eq_pure_bind, Res.pure_eq]
  · simp only [decT, dec, bind_res, hashNT_res, ifT_res, ldPartST_res, zeroPadT_res, tinyT_res, coreT_res, pure_res, Res.pure_eq]

end

/-! ## Two calls with the same lengths -/

/-- Buffers of the same sizes. -/
def SameSize (m m' : Mem) : Prop := m.src.size = m'.src.size ∧ m.dst.size = m'.dst.size

/-- No relation. -/
abbrev Any {α β : Type} : α → β → Prop := fun _ _ => True

theorem rdT_rel {b b' : Buf} (h : b.size = b'.size) (r : Reg) (off : Nat) : Rel Any (rdT b r off) (rdT b' r off) := by
  refine ⟨rfl, ?_⟩
  simp only [rdT, ld, h]
  split <;> trivial

theorem rdPad_rel (off : Nat) : Rel Eq (rdPad off) (rdPad off) := by
  refine ⟨rfl, ?_⟩
  simp only [rdPad, rdT, ld]
  split <;> first | rfl | trivial

theorem rdB_rel {b b' : Buf} (h : b.size = b'.size) (r : Reg) (off : Nat) : Rel Any (rdB b r off) (rdB b' r off) := by
  refine ⟨rfl, ?_⟩
  simp only [rdB, h]
  split <;> trivial

theorem getB_rel (x x' : Block) (i : Nat) : Rel Any (getB x i) (getB x' i) := by
  refine ⟨rfl, ?_⟩
  simp only [getB]
  split <;> trivial

theorem setB_rel (x x' : Block) (i : Nat) (v v' : UInt8) : Rel Any (setB x i v) (setB x' i v') := by
  refine ⟨rfl, ?_⟩
  simp only [setB]
  split <;> trivial

theorem ptr_rel {b b' : Buf} (h : b.size = b'.size) (off : Nat) : Rel Any (ptr b off) (ptr b' off) := by
  refine ⟨rfl, ?_⟩
  simp only [ptr, h]
  split <;> trivial

theorem ldST_rel {m m' : Mem} (h : SameSize m m') (al : Bool) (off : Nat) : Rel Any (ldST al m off) (ldST al m' off) := by
  cases al
  · exact rdT_rel h.1 _ _
  · exact rdT_rel h.2 _ _

theorem stDT_rel {m m' : Mem} (h : SameSize m m') (off : Nat) (x x' : Block) : Rel SameSize (stDT m off x) (stDT m' off x') := by
  refine ⟨rfl, ?_⟩
  simp only [stDT, stD, st, h.2]
  split
  · exact ⟨h.1, rfl⟩
  · trivial

theorem stB_rel {m m' : Mem} (h : SameSize m m') (off : Nat) (x x' : UInt8) : Rel SameSize (stB m off x) (stB m' off x') := by
  refine ⟨rfl, ?_⟩
  simp only [stB, h.2]
  split
  · exact ⟨h.1, rfl⟩
  · trivial

theorem stL_rel {b b' : Buf} (h : b.size = b'.size) (off : Nat) (x x' : Block) : Rel (fun b b' : Buf => b.size = b'.size) (stL b off x) (stL b' off x') := by
  refine ⟨rfl, ?_⟩
  simp only [stL, st, h]
  split <;> trivial

theorem ctxI_rel (c c' : Ctx) (d : Bool) : Rel Any (ctxI c d) (ctxI c' d) := ⟨rfl, trivial⟩
theorem ctxJ_rel (c c' : Ctx) (d : Bool) : Rel Any (ctxJ c d) (ctxJ c' d) := ⟨rfl, trivial⟩

theorem ldPartT_rel {b b' : Buf} (h : b.size = b'.size) (r : Reg) (off n : Nat) : Rel Any (ldPartT b r off n) (ldPartT b' r off n) :=
  Rel.bind (ptr_rel h off) fun _ _ _ => Rel.forT (fun i x y _ => Rel.bind (rdB_rel h r (off + i)) fun v w _ => setB_rel x y i v w) n trivial

theorem ldPartST_rel {m m' : Mem} (h : SameSize m m') (al : Bool) (off n : Nat) : Rel Any (ldPartST al m off n) (ldPartST al m' off n) := by
  cases al
  · exact ldPartT_rel h.1 _ _ _
  · exact ldPartT_rel h.2 _ _ _

theorem zeroPadT_rel (x x' : Block) (n : Nat) : Rel Any (zeroPadT x n) (zeroPadT x' n) :=
  Rel.bind (rdPad_rel n) fun _ _ _ => Rel.pure trivial

theorem oneZeroPadT_rel (x x' : Block) (n : Nat) : Rel Any (oneZeroPadT x n) (oneZeroPadT x' n) :=
  Rel.bind (rdPad_rel n) fun _ _ _ => Rel.bind (rdPad_rel _) fun _ _ _ => Rel.pure trivial

theorem stBytesT_rel {m m' : Mem} (h : SameSize m m') (off n : Nat) (x x' : Block) : Rel SameSize (stBytesT m off n x) (stBytesT m' off n x') :=
  Rel.bind (ptr_rel h.2 off) fun _ _ _ => Rel.forT (P := SameSize) (fun i _ _ h => Rel.bind (getB_rel x x' i) fun v w _ => stB_rel h (off + i) v w) n h

section
variable (R R' : Block → Block) (c c' : Ctx)

theorem hashNT_rel {nonce nonce' : Buf} (h : nonce.size = nonce'.size) (nb a : Nat) : Rel Any (hashNT R c nonce nb a) (hashNT R' c' nonce' nb a) :=
  Rel.bind (P := Any) (Rel.ifT Iff.rfl (fun _ => Rel.pure trivial) fun _ => Rel.pure trivial) fun _ _ _ =>
    Rel.bind (ldPartT_rel h _ _ _) fun _ _ _ => Rel.bind (oneZeroPadT_rel _ _ _) fun _ _ _ => Rel.bind (rdPad_rel _) fun _ _ _ => Rel.pure trivial

/-- Groups of the same pairs of blocks. -/
def SameGroup : Option Group → Option Group → Prop
  | some g, some g' => g.first = g'.first ∧ g.count = g'.count
  | none, none => True
  | _, _ => False

theorem tests_same (bytes : Nat) : List.Forall₂ SameGroup (tests c bytes) (tests c' bytes) := by
  have hg : ∀ (p : Prop) [Decidable p] (f n : Nat) (o o' : Nat → Block),
      SameGroup (if p then some ⟨f, n, o⟩ else none) (if p then some ⟨f, n, o'⟩ else none) := by
    intro p _ f n o o'
    by_cases h : p
    · simp only [if_pos h]; exact ⟨rfl, rfl⟩
    · simp only [if_neg h]; trivial
  have hm : ∀ l : List Nat, List.Forall₂ SameGroup (l.map fun g => some (⟨8 * g, 8, groupOff c (base c g)⟩ : Group))
      (l.map fun g => some ⟨8 * g, 8, groupOff c' (base c' g)⟩) := by
    intro l
    induction l with
    | nil => exact .nil
    | cons a l ih => exact .cons ⟨rfl, rfl⟩ ih
  have happ : ∀ {l₁ l₂ l₃ l₄ : List (Option Group)}, List.Forall₂ SameGroup l₁ l₂ → List.Forall₂ SameGroup l₃ l₄ →
      List.Forall₂ SameGroup (l₁ ++ l₃) (l₂ ++ l₄) := by
    intro l₁ l₂ l₃ l₄ h1 h2
    induction h1 with
    | nil => exact h2
    | cons h _ ih => exact .cons h ih
  exact happ (hm _) (.cons trivial (.cons (hg _ _ _ _ _) (.cons (hg _ _ _ _ _) (.cons (hg _ _ _ _ _) .nil))))

theorem runTests_rel {σ σ' : Type} {P : σ → σ' → Prop} {f : Group → σ → M σ} {f' : Group → σ' → M σ'}
    (hf : ∀ g g' s s', g.first = g'.first → g.count = g'.count → P s s' → Rel P (f g s) (f' g' s')) {ts ts' : List (Option Group)}
    (h : List.Forall₂ SameGroup ts ts') : ∀ {s s'}, P s s' → Rel P (runTests f ts s) (runTests f' ts' s') := by
  induction h with
  | nil => exact fun h => Rel.pure h
  | @cons t t' ts ts' ht _ ih =>
    intro s s' hs
    cases t with
    | none =>
      cases t' with
      | none =>
        have := ih hs
        exact ⟨by simp only [runTests]; rw [this.1], this.2⟩
      | some g' => exact ht.elim
    | some g =>
      cases t' with
      | none => exact ht.elim
      | some g' =>
        have := hf g g' s s' ht.1 ht.2 hs
        exact Rel.bind (P := P) ⟨by simp only; rw [this.1], this.2⟩ fun _ _ h => ih h

theorem passOneT_rel {m m' : Mem} (h : SameSize m m') (al : Bool) (bytes : Nat) :
    Rel (fun r r' => SameSize r.1 r'.1) (passOneT R c al bytes m) (passOneT R' c' al bytes m') := by
  refine runTests_rel (P := fun r r' : Mem × Block => SameSize r.1 r'.1) (fun g g' s s' h1 h2 hs => ?_) (tests_same c c' bytes) h
  simp only [oneGroupT, h2]
  refine Rel.bind (P := SameSize) (Rel.loopT (fun k a b hab => ?_) _ hs) fun _ _ hm => Rel.loopT (P := fun r r' : Mem × Block => SameSize r.1 r'.1) (fun k a b hab => ?_) _ hm
  · simp only [oneAT, h1]
    exact Rel.bind (ldST_rel hab _ _) fun _ _ _ => Rel.bind (ldST_rel hab _ _) fun _ _ _ => stDT_rel hab _ _ _
  · simp only [oneBT, h1]
    exact Rel.bind (rdT_rel hab.2 _ _) fun _ _ _ => Rel.bind (ldST_rel hab _ _) fun _ _ _ => Rel.bind (stDT_rel hab _ _ _) fun _ _ h => Rel.pure h

theorem passTwoT_rel {m m' : Mem} (h : SameSize m m') (s s' : Block) (bytes : Nat) :
    Rel (fun r r' => SameSize r.1 r'.1) (passTwoT R c s bytes m) (passTwoT R' c' s' bytes m') := by
  refine runTests_rel (P := fun r r' : Mem × Block => SameSize r.1 r'.1) (fun g g' v v' h1 h2 hs => ?_) (tests_same c c' bytes) h
  simp only [twoGroupT, h2]
  refine Rel.bind (P := fun r r' : Mem × Block × (Nat → Block) => SameSize r.1 r'.1) (Rel.loopT (fun k a b hab => ?_) _ hs) fun _ _ hm =>
    Rel.bind (P := SameSize) (Rel.loopT (fun k a b hab => ?_) _ hm) fun _ _ hm => Rel.bind (P := SameSize) (Rel.loopT (fun k a b hab => ?_) _ hm) fun _ _ hm => Rel.pure hm
  · simp only [twoAT, h1]
    exact Rel.bind (rdT_rel hab.2 _ _) fun _ _ _ => Rel.bind (rdT_rel hab.2 _ _) fun _ _ _ => Rel.bind (stDT_rel hab _ _ _) fun _ _ h => Rel.pure h
  · simp only [twoBT, h1]
    exact Rel.bind (rdT_rel hab.2 _ _) fun _ _ _ => stDT_rel hab _ _ _
  · simp only [twoCT, h1]
    exact Rel.bind (rdT_rel hab.2 _ _) fun _ _ _ => Rel.bind (rdT_rel hab.2 _ _) fun _ _ _ => stDT_rel hab _ _ _

theorem coreFragT_rel {m m' : Mem} (h : SameSize m m') (al : Bool) (i f : Nat) (x x' : Block) :
    Rel Any (coreFragT R c al m i f x) (coreFragT R' c' al m' i f x') :=
  Rel.ifT Iff.rfl
    (fun _ => Rel.bind (ldST_rel h _ _) fun _ _ _ => Rel.bind (ldST_rel h _ _) fun _ _ _ => Rel.bind (oneZeroPadT_rel _ _ _) fun _ _ _ => Rel.pure trivial)
    fun _ => Rel.ifT Iff.rfl (fun _ => Rel.bind (ldST_rel h _ _) fun _ _ _ => Rel.bind (oneZeroPadT_rel _ _ _) fun _ _ _ => Rel.pure trivial)
      fun _ => Rel.pure trivial

theorem coreFragOutT_rel {m m' : Mem} (h : SameSize m m') (s s' f0 f0' f1 f1' : Block) (i f : Nat) (y y' : Block) :
    Rel (fun r r' => SameSize r.1 r'.1) (coreFragOutT R c m s f0 f1 i f y) (coreFragOutT R' c' m' s' f0' f1' i f y') :=
  Rel.ifT Iff.rfl
    (fun _ => Rel.bind (oneZeroPadT_rel _ _ _) fun _ _ _ => Rel.bind (stDT_rel h _ _ _) fun _ _ h => Rel.bind (stDT_rel h _ _ _) fun _ _ h => Rel.pure h)
    fun _ => Rel.ifT Iff.rfl (fun _ => Rel.bind (oneZeroPadT_rel _ _ _) fun _ _ _ => Rel.bind (stDT_rel h _ _ _) fun _ _ h => Rel.pure h)
      fun _ => Rel.pure h

theorem lastBlockT_rel {m m' : Mem} (h : SameSize m m') (al d : Bool) (b a : Nat) : Rel Any (lastBlockT al d m b a) (lastBlockT al d m' b a) :=
  Rel.ifT Iff.rfl (fun _ => ldST_rel h _ _) fun _ => Rel.ifT Iff.rfl (fun _ => ldST_rel h _ _) fun _ =>
    Rel.bind (ldST_rel h _ _) fun _ _ _ => zeroPadT_rel _ _ _

theorem lastStoreT_rel {m m' : Mem} (h : SameSize m m') (d : Bool) (b a : Nat) (x x' : Block) : Rel SameSize (lastStoreT d m b a x) (lastStoreT d m' b a x') :=
  Rel.ifT Iff.rfl (fun _ => stDT_rel h _ _ _) fun _ => Rel.ifT Iff.rfl (fun _ => stDT_rel h _ _ _) fun _ => stBytesT_rel h _ _ _ _

/-- The call has returned -1. -/
def Rejected (x : M (Mem × Bool)) : Prop := ∃ m, x.res = .ok (m, false)

/-- Two calls that look the same unless just one of them has returned -1. -/
def RelX (x y : M (Mem × Bool)) : Prop := (Rejected x ↔ Rejected y) → Rel (fun r r' : Mem × Bool => SameSize r.1 r'.1) x y

theorem RelX.bind {α β : Type} {P : α → β → Prop} {x : M α} {y : M β} {f : α → M (Mem × Bool)} {g : β → M (Mem × Bool)} (h : Rel P x y)
    (hf : ∀ a b, P a b → RelX (f a) (g b)) : RelX (x >>= f) (y >>= g) := by
  obtain ⟨xe, xr⟩ := x
  obtain ⟨ye, yr⟩ := y
  obtain ⟨he, hr⟩ := h
  simp only at he
  subst he
  intro hiff
  cases xr <;> cases yr <;> simp only [ResRel] at hr
  · rename_i a b
    have := hf a b hr hiff
    exact ⟨by show xe ++ _ = xe ++ _; rw [this.1], this.2⟩
  · exact ⟨rfl, hr⟩
  · exact ⟨rfl, trivial⟩

theorem RelX.ifT {p : Prop} [Decidable p] {a b a' b' : M (Mem × Bool)} (ha : p → RelX a a') (hb : ¬p → RelX b b') :
    RelX (T.ifT p a b) (T.ifT p a' b') := by
  intro hiff
  by_cases h : p
  · have := ha h (by simpa only [Rejected, ifT_res, if_pos h] using hiff)
    exact Rel.ifT Iff.rfl (fun _ => this) fun hn => absurd h hn
  · have := hb h (by simpa only [Rejected, ifT_res, if_neg h] using hiff)
    exact Rel.ifT Iff.rfl (fun hp => absurd hp h) fun _ => this

/-- The call does not return -1. -/
structure Accepts (x : M (Mem × Bool)) : Prop where
  out : ∀ r, x.res = .ok r → r.2 = true

theorem Accepts.not {x : M (Mem × Bool)} (h : Accepts x) : ¬Rejected x := fun ⟨_, hm⟩ => absurd (h.out _ hm) Bool.false_ne_true

theorem Accepts.bind {α : Type} {x : M α} {f : α → M (Mem × Bool)} (h : ∀ a, x.res = .ok a → Accepts (f a)) : Accepts (x >>= f) := by
  refine ⟨fun r hr => ?_⟩
  rw [bind_res, Res.bind_eq_ok] at hr
  obtain ⟨a, ha, hr⟩ := hr
  exact (h a ha).out r hr

theorem Accepts.pure {m : Mem} : Accepts (pure (m, true) : M _) := by
  refine ⟨fun r hr => ?_⟩
  rw [pure_res] at hr
  cases hr
  rfl

theorem Accepts.ifT {p : Prop} [Decidable p] {a b : M (Mem × Bool)} (ha : p → Accepts a) (hb : ¬p → Accepts b) : Accepts (T.ifT p a b) := by
  refine ⟨fun r hr => ?_⟩
  rw [ifT_res] at hr
  by_cases h : p
  · rw [if_pos h] at hr; exact (ha h).out r hr
  · rw [if_neg h] at hr; exact (hb h).out r hr

/-- The branch at the test of the authentication bytes: `-1` is returned in the first case. -/
theorem RelX.test {p p' : Prop} [Decidable p] [Decidable p'] {m m' : Mem} {b b' : M (Mem × Bool)} (hm : SameSize m m') (ha : Accepts b) (ha' : Accepts b')
    (hb : Rel (fun r r' : Mem × Bool => SameSize r.1 r'.1) b b') : RelX (T.ifT p (pure (m, false)) b) (T.ifT p' (pure (m', false)) b') := by
  intro hiff
  have h1 : Rejected (T.ifT p (pure (m, false)) b) ↔ p := by
    constructor
    · intro ⟨x, hx⟩
      by_contra h
      rw [ifT_res, if_neg h] at hx
      exact absurd (ha.out _ hx) Bool.false_ne_true
    · intro h; exact ⟨m, by rw [ifT_res, if_pos h]; rfl⟩
  have h2 : Rejected (T.ifT p' (pure (m', false)) b') ↔ p' := by
    constructor
    · intro ⟨x, hx⟩
      by_contra h
      rw [ifT_res, if_neg h] at hx
      exact absurd (ha'.out _ hx) Bool.false_ne_true
    · intro h; exact ⟨m', by rw [ifT_res, if_pos h]; rfl⟩
  exact Rel.ifT (h1.symm.trans (hiff.trans h2)) (fun _ => Rel.pure hm) fun _ => hb

theorem coreTailT_rel {m m' : Mem} (h : SameSize m m') (t t' : Block) (d : Bool) (b a : Nat) (s s' f0 f0' f1 f1' g0 g0' g1 g1' : Block) :
    Rel (fun r r' : Mem × Bool => SameSize r.1 r'.1) (coreTailT R c t d b a m s f0 f1 g0 g1) (coreTailT R' c' t' d b a m' s' f0' f1' g0' g1') :=
  Rel.bind (ctxI_rel c c' _) fun _ _ _ => Rel.bind (passTwoT_rel R R' c c' h _ _ _) fun _ _ h => Rel.bind (coreFragOutT_rel R R' c c' h _ _ _ _ _ _ _ _ _ _) fun _ _ h =>
    Rel.bind (stDT_rel h _ _ _) fun _ _ h => Rel.bind (lastStoreT_rel h _ _ _ _ _) fun _ _ h => Rel.pure h

theorem coreTailT_accepts (t : Block) (d : Bool) (b a : Nat) (m : Mem) (s f0 f1 g0 g1 : Block) : Accepts (coreTailT R c t d b a m s f0 f1 g0 g1) :=
  Accepts.bind fun _ _ => Accepts.bind fun _ _ => Accepts.bind fun _ _ => Accepts.bind fun _ _ => Accepts.bind fun _ _ => Accepts.pure

/-- The length after `if (!d) bytes += abytes;`. -/
theorem len_rel (d : Bool) (b a : Nat) :
    Rel Eq (ifT (d = false) (pure ((b + a) % 4294967296)) (pure b) : M Nat) (ifT (d = false) (pure ((b + a) % 4294967296)) (pure b)) :=
  Rel.ifT Iff.rfl (fun _ => Rel.pure rfl) fun _ => Rel.pure rfl

theorem coreT_rel {m m' : Mem} (h : SameSize m m') (t t' : Block) (d al : Bool) (b a : Nat) :
    RelX (coreT R c t d al b a m) (coreT R' c' t' d al b a m') := by
  unfold coreT
  refine RelX.bind (len_rel d b a) fun n _ hn => ?_
  subst hn
  refine RelX.bind (passOneT_rel R R' c c' h al _) fun r r' hr => ?_
  refine RelX.bind (coreFragT_rel R R' c c' hr al _ _ _ _) fun _ _ _ => ?_
  refine RelX.bind (ldST_rel hr al _) fun _ _ _ => ?_
  refine RelX.bind (lastBlockT_rel hr al d _ _) fun _ _ _ => ?_
  refine RelX.bind (ctxI_rel c c' _) fun _ _ _ => ?_
  refine RelX.bind (ctxJ_rel c c' _) fun _ _ _ => ?_
  refine RelX.bind (ctxJ_rel c c' _) fun _ _ _ => ?_
  refine RelX.ifT (fun _ => ?_) fun _ _ => coreTailT_rel R R' c c' hr _ _ _ _ _ _ _ _ _ _ _ _ _ _ _
  refine RelX.bind (rdPad_rel a) fun p _ hp => ?_
  exact RelX.test hr (coreTailT_accepts ..) (coreTailT_accepts ..) (coreTailT_rel R R' c c' hr _ _ _ _ _ _ _ _ _ _ _ _ _ _ _)

theorem tinyLoadT_rel {m m' : Mem} (h : SameSize m m') (al : Bool) (b : Nat) :
    Rel (fun b b' : Buf => b.size = b'.size) (tinyLoadT al b m) (tinyLoadT al b m') :=
  Rel.ifT Iff.rfl (fun _ => Rel.bind (ldST_rel h _ _) fun _ _ _ => Rel.bind (ldPartST_rel h _ _ _) fun _ _ _ => Rel.bind (zeroPadT_rel _ _ _) fun _ _ _ => Rel.pure rfl)
    fun _ => Rel.bind (ldPartST_rel h _ _ _) fun _ _ _ => Rel.bind (zeroPadT_rel _ _ _) fun _ _ _ => Rel.pure rfl

theorem tinyHalvesT_rel {u u' : Buf} (h : u.size = u'.size) (b : Nat) : Rel Any (tinyHalvesT b u) (tinyHalvesT b u') :=
  Rel.bind (rdT_rel h _ _) fun _ _ _ => Rel.bind (rdPad_rel _) fun _ _ _ => Rel.bind (rdPad_rel _) fun _ _ _ =>
    Rel.ifT Iff.rfl (fun _ => ⟨rfl, trivial⟩) fun _ => Rel.pure trivial

theorem tinyRoundsT_rel (t t' : Block) (b : Nat) : Rel (fun x y : Block × Nat => x.2 = y.2) (tinyRoundsT c t b) (tinyRoundsT c' t' b) :=
  Rel.ifT Iff.rfl (fun _ => Rel.pure rfl) fun _ => Rel.ifT Iff.rfl (fun _ => Rel.pure rfl) fun _ => Rel.ifT Iff.rfl (fun _ => Rel.pure rfl) fun _ => Rel.pure rfl

theorem topBitT_rel (t t' x x' : Block) : Rel Any (topBitT R c t x) (topBitT R' c' t' x') :=
  Rel.bind (rdPad_rel _) fun _ _ _ => Rel.bind (rdPad_rel _) fun _ _ _ => Rel.pure trivial

theorem tinyLeftT_rel (t t' : Block) (d : Bool) (b : Nat) (l l' : Block) : Rel Any (tinyLeftT R c t d b l) (tinyLeftT R' c' t' d b l') :=
  Rel.ifT Iff.rfl (fun _ => Rel.ifT Iff.rfl (fun _ => Rel.bind (topBitT_rel R R' c c' _ _ _ _) fun _ _ _ => Rel.pure trivial) fun _ => Rel.pure trivial)
    fun _ => Rel.pure trivial

theorem feistelT_rel (t t' ff ff' m1 m1' one one' : Block) (n : Nat) (s s' : Block × Block × Block) :
    Rel Any (feistelT R c t ff m1 one n s) (feistelT R' c' t' ff' m1' one' n s') :=
  Rel.forT (P := Any) (fun _ _ _ _ => Rel.pure trivial) n trivial

theorem tinyJoinT_rel {u u' : Buf} (h : u.size = u'.size) (b : Nat) (l l' r r' : Block) :
    Rel (fun b b' : Buf => b.size = b'.size) (tinyJoinT b u l r) (tinyJoinT b u' l' r') :=
  Rel.bind (stL_rel h _ _ _) fun _ _ h => Rel.bind (P := Any) (Rel.ifT Iff.rfl (fun _ => Rel.bind (rdT_rel h _ _) fun _ _ _ => Rel.pure trivial) fun _ => Rel.pure trivial)
    fun _ _ _ => stL_rel h _ _ _

theorem tinyTagT_rel {u u' : Buf} (h : u.size = u'.size) (b a : Nat) : Rel Any (tinyTagT u b a) (tinyTagT u' b a) :=
  Rel.ifT Iff.rfl (fun _ => rdT_rel h _ _) fun _ => ldPartT_rel h _ _ _

theorem tinyWriteT_rel {m m' : Mem} (h : SameSize m m') {u u' : Buf} (hu : u.size = u'.size) (n : Nat) :
    Rel (fun r r' : Mem × Bool => SameSize r.1 r'.1) (tinyWriteT m u n) (tinyWriteT m' u' n) :=
  Rel.bind (Rel.forT (P := SameSize) (fun i _ _ h => Rel.bind (rdB_rel hu _ i) fun v w _ => stB_rel h i v w) n h) fun _ _ h => Rel.pure h

theorem tinyWriteT_accepts (m : Mem) (u : Buf) (n : Nat) : Accepts (tinyWriteT m u n) := Accepts.bind fun _ _ => Accepts.pure

theorem tinyFinishT_rel {u u' : Buf} (h : u.size = u'.size) (t t' : Block) (b : Nat) :
    Rel (fun b b' : Buf => b.size = b'.size) (tinyFinishT R c t b u) (tinyFinishT R' c' t' b u') :=
  Rel.ifT Iff.rfl (fun _ => Rel.bind (rdT_rel h _ _) fun _ _ _ => Rel.bind (zeroPadT_rel _ _ _) fun _ _ _ => Rel.bind (topBitT_rel R R' c c' _ _ _ _) fun _ _ _ =>
    stL_rel h _ _ _) fun _ => Rel.pure h

theorem tinyT_rel {m m' : Mem} (h : SameSize m m') (t t' : Block) (d al : Bool) (b a : Nat) :
    RelX (tinyT R c t d al b a m) (tinyT R' c' t' d al b a m') := by
  unfold tinyT
  refine RelX.bind (tinyLoadT_rel h al b) fun _ _ hb => ?_
  refine RelX.bind (len_rel d b a) fun n _ hn => ?_
  subst hn
  refine RelX.bind (rdT_rel hb _ _) fun _ _ _ => ?_
  refine RelX.bind (tinyHalvesT_rel hb n) fun _ _ _ => ?_
  refine RelX.bind (tinyRoundsT_rel c c' t t' n) fun x y hxy => ?_
  refine RelX.bind (P := Any) (Rel.ifT Iff.rfl (fun _ => Rel.pure trivial) fun _ => Rel.pure trivial) fun _ _ _ => ?_
  refine RelX.bind (tinyLeftT_rel R R' c c' t t' d n _ _) fun _ _ _ => ?_
  rw [hxy]
  refine RelX.bind (feistelT_rel R R' c c' _ _ _ _ _ _ _ _ _ _ _) fun _ _ _ => ?_
  refine RelX.bind (tinyJoinT_rel hb n _ _ _ _) fun _ _ hb => ?_
  refine RelX.ifT (fun _ => RelX.bind (tinyTagT_rel hb _ _) fun _ _ _ => ?_) fun _ _ =>
    Rel.bind (tinyFinishT_rel R R' c c' hb t t' n) fun _ _ hb => tinyWriteT_rel h hb n
  exact RelX.test h (tinyWriteT_accepts ..) (tinyWriteT_accepts ..) (tinyWriteT_rel h hb _)

/-- Encryption never returns -1. -/
theorem coreT_accepts (t : Block) (al : Bool) (b a : Nat) (m : Mem) : Accepts (coreT R c t false al b a m) :=
  Accepts.bind fun _ _ => Accepts.bind fun _ _ => Accepts.bind fun _ _ => Accepts.bind fun _ _ => Accepts.bind fun _ _ => Accepts.bind fun _ _ =>
    Accepts.bind fun _ _ => Accepts.bind fun _ _ => Accepts.ifT (fun h => absurd h Bool.false_ne_true) fun _ => coreTailT_accepts ..

theorem tinyT_accepts (t : Block) (al : Bool) (b a : Nat) (m : Mem) : Accepts (tinyT R c t false al b a m) :=
  Accepts.bind fun _ _ => Accepts.bind fun _ _ => Accepts.bind fun _ _ => Accepts.bind fun _ _ => Accepts.bind fun _ _ => Accepts.bind fun _ _ =>
    Accepts.bind fun _ _ => Accepts.bind fun _ _ => Accepts.bind fun _ _ => Accepts.ifT (fun h => absurd h Bool.false_ne_true) fun _ =>
      Accepts.bind fun _ _ => tinyWriteT_accepts ..

/-- **C87** (encryption). Two encryptions with any keys, nonces and messages look the same to an observer of branches and addresses if the lengths agree. -/
theorem c87_encrypt {nonce nonce' : Buf} (hn : nonce.size = nonce'.size) (nb a : Nat) (al : Bool) (b : Nat) {m m' : Mem} (hm : SameSize m m') :
    (encT R c nonce nb a al b m).evs = (encT R' c' nonce' nb a al b m').evs := by
  refine Rel.evs (P := SameSize) (Rel.bind (hashNT_rel R R' c c' hn nb a) fun t t' _ => Rel.ifT Iff.rfl (fun _ => stBytesT_rel hm _ _ _ _) fun _ =>
    Rel.ifT Iff.rfl (fun _ => Rel.bind (tinyT_rel R R' c c' hm t t' false al b a ?_) fun _ _ h => Rel.pure h)
      fun _ => Rel.bind (coreT_rel R R' c c' hm t t' false al b a ?_) fun _ _ h => Rel.pure h)
  · exact iff_of_false (tinyT_accepts ..).not (tinyT_accepts ..).not
  · exact iff_of_false (coreT_accepts ..).not (coreT_accepts ..).not

theorem decT_rel {nonce nonce' : Buf} (hn : nonce.size = nonce'.size) (nb a : Nat) (al : Bool) (b : Nat) {m m' : Mem} (hm : SameSize m m') :
    RelX (decT R c nonce nb a al b m) (decT R' c' nonce' nb a al b m') := by
  refine RelX.ifT (fun _ _ => Rel.pure hm) fun _ => RelX.bind (hashNT_rel R R' c c' hn nb a) fun t t' _ => RelX.ifT (fun _ _ => ?_) fun _ =>
    RelX.ifT (fun _ => tinyT_rel R R' c c' hm t t' true al b a) fun _ => coreT_rel R R' c c' hm t t' true al b a
  exact Rel.bind (ldPartST_rel hm _ _ _) fun _ _ _ => Rel.bind (zeroPadT_rel _ _ _) fun _ _ _ => Rel.bind (zeroPadT_rel _ _ _) fun _ _ _ => Rel.pure hm

/-- **C87** (decryption). Two decryptions with any keys, nonces and ciphertexts of the same lengths look the same if both or none of them are rejected. -/
theorem c87_decrypt {nonce nonce' : Buf} (hn : nonce.size = nonce'.size) (nb a : Nat) (al : Bool) (b : Nat) {m m' : Mem} (hm : SameSize m m')
    (h : (∃ x, dec R c nonce nb a al b m = .ok (x, false)) ↔ ∃ x, dec R' c' nonce' nb a al b m' = .ok (x, false)) :
    (decT R c nonce nb a al b m).evs = (decT R' c' nonce' nb a al b m').evs := by
  refine (decT_rel R R' c c' hn nb a al b hm ?_).1
  simpa only [Rejected, (c87_refines ..).2] using h

end

/-! ## `Prp` -/

section
variable (R R' : Block → Block)

theorem hash_zeroIv (c : Ctx) : hashN R c zeroIv 16 0 = hash R c := by
  have h1 : ldPart zeroIv 0 16 = .ok bzero := by
    rw [ldPart, if_pos (by decide)]
    congr 1
    funext i
    simp [zeroIv, bzero]
  have h2 : subU 16 16 = 0 := by decide
  have h3 : UInt8.ofNat (8 * 0) = 0 := rfl
  unfold hashN hash
  rw [h1, h2, h3]
  dsimp only
  rw [if_pos rfl, Res.bind_ok]

theorem st_size {b b' : Buf} {off : Nat} {x : Block} (h : st b off x = .ok b') : b'.size = b.size := by
  unfold st at h
  split at h
  · cases h; rfl
  · cases h

theorem tinyLoad_size {al : Bool} {n : Nat} {m : Mem} {b : Buf} (h : tinyLoad al n m = .ok b) : b.size = 32 := by
  simp only [tinyLoad, tinyLoadFrom, Res.bind_eq_ok] at h
  obtain ⟨_, _, _, _, h⟩ := h
  cases h
  rfl

theorem tinyJoin_size {n : Nat} {u b : Buf} {l r : Block} (h : tinyJoin n u l r = .ok b) : b.size = u.size := by
  simp only [tinyJoin, Res.bind_eq_ok] at h
  obtain ⟨w, h1, h⟩ := h
  have h1 := st_size h1
  split at h
  · simp only [Res.bind_eq_ok] at h
    obtain ⟨_, _, h⟩ := h
    rw [st_size h, h1]
  · rw [st_size h, h1]

theorem tinyFinish_size {c : Ctx} {t : Block} {d : Bool} {n : Nat} {u b : Buf} (h : tinyFinish R c t d n u = .ok b) : b.size = u.size := by
  simp only [tinyFinish] at h
  split at h
  · simp only [Res.bind_eq_ok] at h
    obtain ⟨_, _, _, _, _, _, h⟩ := h
    exact st_size h
  · cases h; rfl

/-- Binds with the same first part. -/
theorem bind_congr' {α β : Type} {x : Res α} {f g : α → Res β} (h : ∀ a, x = .ok a → f a = g a) : (x >>= f) = (x >>= g) := by
  cases x with
  | ok a => exact h a rfl
  | exc e => rfl
  | ub => rfl

theorem tinyA_zero (c : Ctx) (t : Block) (d al : Bool) {b : Nat} (hb : b < 32) (m : Mem) :
    tinyA R c t d al b 0 m = (fun m => (m, true)) <$> tiny R c t d al b m := by
  have hl : (if d then b else (b + 0) % 4294967296) = b := by
    cases d
    · exact Nat.mod_eq_of_lt (by omega)
    · rfl
  unfold tinyA tiny
  rw [hl, map_bind]
  refine bind_congr' fun buf h1 => ?_
  have h1 := tinyLoad_size h1
  dsimp only
  rw [map_bind]
  refine bind_congr' fun l _ => ?_
  rw [map_bind]
  refine bind_congr' fun r _ => ?_
  rw [map_bind]
  refine bind_congr' fun ms _ => ?_
  rw [map_bind]
  refine bind_congr' fun l _ => ?_
  rw [map_bind]
  refine bind_congr' fun u h2 => ?_
  have h2 := tinyJoin_size h2
  have hw : ∀ v : Buf, v.size = 32 → tinyWrite m v b =
      (fun m => (m, true)) <$> (if b ≤ m.dst.size then .ok ⟨m.src, m.dst.size, fun i => if i < b then v.data i else m.dst.data i⟩ else .ub : Res Mem) := by
    intro v hv
    unfold tinyWrite
    by_cases h : b ≤ m.dst.size
    · rw [if_pos h, if_pos ⟨h, by omega⟩]; rfl
    · rw [if_neg h, if_neg (by omega)]; rfl
  cases d
  · rw [if_neg Bool.false_ne_true, map_bind]
    refine bind_congr' fun v h3 => ?_
    have h3 := tinyFinish_size R h3
    exact hw v (by omega)
  · have hs : subU b 0 = b := by unfold subU; omega
    have ht : tinyTag u b 0 = .ok bzero := by
      rw [tinyTag, if_neg (by decide), ldPart, if_pos (by omega)]
      congr 1
    have hz : isZero bzero = true := by decide
    rw [if_pos rfl, hs, ht, Res.bind_ok, hz, if_neg (by decide)]
    rw [tinyFinish, if_neg (by simp), Res.pure_eq, Res.bind_ok]
    exact hw u (by omega)

theorem coreA_zero (c : Ctx) (t : Block) (d al : Bool) {b : Nat} (hb : b < 4294967296) (m : Mem) :
    coreA R c t d al b 0 m = (fun m => (m, true)) <$> core R c t d al b m := by
  have hl : (if d then b else (b + 0) % 4294967296) = b := by
    cases d
    · exact Nat.mod_eq_of_lt (by omega)
    · rfl
  have ht : ∀ x, tagOk d 0 x = .ok true := by
    intro x
    cases d
    · rfl
    · rw [tagOk, if_pos rfl, ld, if_pos (by decide)]
      have : isZero (bandnot (blk Aez.pad.data 0) x) = true := by
        unfold isZero
        rw [decide_eq_true_iff]
        intro i
        have : blk Aez.pad.data 0 i = 0xff := by
          simp only [blk, Aez.pad]
          rw [if_pos (by omega)]
        rw [bandnot, this]
        exact UInt8.zero_and
      rw [Res.map_ok, this]
  unfold coreA core
  rw [hl]
  dsimp only
  rw [map_bind]
  refine bind_congr' fun _ _ => ?_
  rw [map_bind]
  refine bind_congr' fun _ _ => ?_
  rw [map_bind]
  refine bind_congr' fun _ _ => ?_
  rw [map_bind, lastBlock, if_pos (Or.inr rfl)]
  refine bind_congr' fun _ _ => ?_
  rw [ht, Res.bind_ok, if_neg (by decide), map_bind]
  refine bind_congr' fun _ _ => ?_
  rw [map_bind]
  refine bind_congr' fun _ _ => ?_
  rw [map_bind]
  refine bind_congr' fun _ _ => ?_
  rw [lastStore, if_pos (Or.inr rfl), map_eq_pure_bind]

/-- With the arguments of `Prp` the two functions are those of the model of `Prp`. -/
theorem enc_zero (c : Ctx) (al : Bool) {b : Nat} (hb : b < 4294967296) (m : Mem) : enc R c zeroIv 16 0 al b m = aez R c false al b m := by
  unfold enc aez
  rw [hash_zeroIv]
  refine bind_congr' fun t _ => ?_
  by_cases h0 : b = 0
  · rw [if_pos h0, if_pos h0, stBytes, if_pos (by omega), Res.pure_eq]
    congr 1
  · rw [if_neg h0, if_neg h0, Nat.add_zero, Nat.mod_eq_of_lt hb]
    by_cases h1 : b < 32
    · rw [if_pos h1, if_pos h1, tinyA_zero R c t false al h1, ← comp_map]
      exact id_map _
    · rw [if_neg h1, if_neg h1, coreA_zero R c t false al hb, ← comp_map]
      exact id_map _

theorem dec_zero (c : Ctx) (al : Bool) {b : Nat} (hb : b < 4294967296) (m : Mem) :
    dec R c zeroIv 16 0 al b m = (fun m => (m, true)) <$> aez R c true al b m := by
  unfold dec aez
  rw [if_neg (by omega), hash_zeroIv, map_bind]
  refine bind_congr' fun t _ => ?_
  by_cases h0 : b = 0
  · have h1 : ldPart (if al then m.dst else m.src) 0 0 = .ok bzero := by
      rw [ldPart, if_pos (by omega)]
      congr 1
    have h2 : subU 16 0 = 16 := by decide
    have h3 : ∀ x, zeroPad x 16 = .ok bzero := by
      intro x
      rw [zeroPad, ld, if_pos (by decide), Res.map_ok]
      congr 1
      funext i
      have : blk Aez.pad.data 16 i = 0 := by
        simp only [blk, Aez.pad]
        rw [if_neg (by omega), if_neg (by omega)]
      rw [band, this]
      exact UInt8.and_zero
    have h4 : isZero (bandnot bzero bzero) = true := by decide
    rw [if_pos h0, if_pos h0, h1, h2, Res.bind_ok, h3, Res.bind_ok, h3, Res.bind_ok, h4]
    rfl
  · rw [if_neg h0, if_neg h0]
    by_cases h1 : b < 32
    · rw [if_pos h1, if_pos h1, tinyA_zero R c t true al h1]
    · rw [if_neg h1, if_neg h1, coreA_zero R c t true al hb]

/-- **C87** (refinement, `Prp`). -/
theorem c87_prp_refines (key : Nat → UInt8) (d al : Bool) {b : Nat} (hb : b < 4294967296) (m : Mem) :
    (prpT R key d al b m).res = aez R (setup key) d al b m := by
  unfold prpT
  rw [bind_res]
  show (ite _ _ _ : M Mem).res = _
  cases d
  · rw [if_neg Bool.false_ne_true, (c87_refines ..).1, enc_zero R _ al hb]
  · rw [if_pos rfl, bind_res, (c87_refines ..).2, dec_zero R _ al hb]
    cases aez R (setup key) true al b m <;> rfl

/-- **C87** (`Prp`). Making a `Prp` and encrypting or decrypting with it looks the same for all keys and all messages of one length. -/
theorem c87_prp (key key' : Nat → UInt8) (d al : Bool) {b : Nat} (hb : b < 4294967296) {m m' : Mem} (hm : SameSize m m') :
    (prpT R key d al b m).evs = (prpT R' key' d al b m').evs := by
  have hr : ∀ (R : Block → Block) (c : Ctx) (m : Mem), ¬∃ x, dec R c zeroIv 16 0 al b m = .ok (x, false) := by
    intro R c m ⟨x, hx⟩
    rw [dec_zero R c al hb] at hx
    cases h : aez R c true al b m <;> rw [h] at hx <;> cases hx
  show (setupT key).evs ++ (ite _ _ _ : M Mem).evs = (setupT key').evs ++ (ite _ _ _ : M Mem).evs
  congr 1
  cases d
  · exact c87_encrypt R R' _ _ rfl 16 0 al b hm
  · have := decT_rel R R' (setup key) (setup key') (nonce := zeroIv) (nonce' := zeroIv) rfl 16 0 al b hm
      (by simpa only [Rejected, (c87_refines ..).2] using iff_of_false (hr R _ m) (hr R' _ m'))
    exact (Rel.bind (Q := SameSize) this fun _ _ h => Rel.pure h).1

end

/-! ## What is seen -/

/-- A round function, a context and a ciphertext for which the computations are short. -/
def R0 : Block → Block := fun _ => bzero
def c0 : Ctx := ⟨bzero, bzero, bzero, bzero, bzero, bzero, bzero⟩
def ct (x : UInt8) : Mem := ⟨Buf.ofList [x, 0], ⟨2, fun _ => 0⟩⟩

/-- **C87** (the hypothesis of `c87_decrypt` cannot be left out). Rejection is seen: these ciphertexts of two bytes with one authentication byte, the first accepted
and the second rejected, give different events. -/
theorem c87_rejection_visible : (decT R0 c0 zeroIv 16 1 false 2 (ct 0)).evs ≠ (decT R0 c0 zeroIv 16 1 false 2 (ct 1)).evs ∧
    (∃ m, dec R0 c0 zeroIv 16 1 false 2 (ct 0) = .ok (m, true)) ∧ ∃ m, dec R0 c0 zeroIv 16 1 false 2 (ct 1) = .ok (m, false) := by
  have hv : ∀ x : Res (Mem × Bool), ∀ b, (match x with | .ok (_, c) => c == b | _ => false) = true → ∃ m, x = .ok (m, b) := by
    intro x b h
    match x, h with
    | .ok (m, c), h => exact ⟨m, by rw [eq_of_beq h]⟩
  exact ⟨by decide +kernel, hv _ _ (by decide +kernel), hv _ _ (by decide +kernel)⟩

/-- Messages of four and of five bytes give different events: the length is seen. -/
example : (prpT R0 (fun _ => 0) false false 4 ⟨⟨4, fun _ => 0⟩, ⟨4, fun _ => 0⟩⟩).evs ≠ (prpT R0 (fun _ => 0) false false 5 ⟨⟨5, fun _ => 0⟩, ⟨5, fun _ => 0⟩⟩).evs := by
  decide +kernel

/-- Two encryptions of eight bytes under different keys. -/
example : (prpT R0 (fun _ => 0) false false 8 ⟨⟨8, fun _ => 0⟩, ⟨8, fun _ => 0⟩⟩).evs =
    (prpT R0 (fun i => UInt8.ofNat i) false false 8 ⟨⟨8, fun i => UInt8.ofNat (7 * i)⟩, ⟨8, fun _ => 1⟩⟩).evs :=
  c87_prp R0 R0 _ _ false false (by omega) ⟨rfl, rfl⟩

/-- Two rejected ciphertexts. -/
example : (decT R0 c0 zeroIv 16 1 false 2 (ct 1)).evs = (decT R0 c0 zeroIv 16 1 false 2 (ct 2)).evs := by
  have hv : ∀ x : Res (Mem × Bool), (match x with | .ok (_, c) => c == false | _ => false) = true → ∃ m, x = .ok (m, false) := by
    intro x h
    match x, h with
    | .ok (m, c), h => exact ⟨m, by rw [eq_of_beq h]⟩
  exact c87_decrypt R0 R0 c0 c0 rfl 16 1 false 2 ⟨rfl, rfl⟩ (iff_of_true (hv _ (by decide +kernel)) (hv _ (by decide +kernel)))

/-- The beginning of what is seen of an encryption of 40 bytes with `Prp`: key setup, the nonce, two blocks of the table. -/
example : ((prpT R0 (fun _ => 0) false false 40 ⟨⟨40, fun _ => 0⟩, ⟨40, fun _ => 0⟩⟩).evs.drop 11).take 4 =
    [.br true, .br true, .rd .nonce 0 1, .wr .loc 0 1] := by
  decide +kernel

end Verif.Aez.Traced
