import Verif.Cipher.SpecGame

namespace Verif.Cipher.Game

open Verif Verif.Mac Verif.Avg

/-! ### Salts and strings -/

theorem toBytes_length {m : Nat} (b : Block m) : (toBytes b).length = m := by simp [toBytes]

theorem toBytes_saltOf {x : Bytes} (h : 16 ≤ x.length) : toBytes (saltOf x) = x.take 16 := by
  apply List.ext_getElem
  · rw [toBytes_length, List.length_take]; omega
  · intro i h1 h2
    rw [toBytes_length] at h1
    simp only [toBytes, List.getElem_ofFn, saltOf, List.getElem_take]
    rw [List.getD_eq_getElem?_getD, List.getElem?_eq_getElem (by omega), Option.getD_some]

theorem saltOf_append (s : Block 16) (e : Bytes) : saltOf (toBytes s ++ e) = s := by
  funext i
  have hl : (toBytes s).length = 16 := toBytes_length s
  unfold saltOf
  rw [List.getD_eq_getElem?_getD, List.getElem?_append_left (by rw [hl]; exact i.isLt),
    List.getElem?_eq_getElem (by rw [hl]; exact i.isLt), Option.getD_some]
  simp only [toBytes, List.getElem_ofFn]

theorem saltOf_toBytes (s : Block 16) : saltOf (toBytes s) = s := by
  have := saltOf_append s []
  rwa [List.append_nil] at this

theorem nonceOf_saltOf {x : Bytes} (h : 16 ≤ x.length) : nonceOf (saltOf x) = x.take 12 := by
  unfold nonceOf
  rw [toBytes_saltOf h, List.take_take]
  rfl

/-! ### The code with a function in the place of the key derivation -/

theorem withKdf_ok {P : Prims} (hP : P.Ok) (R : Block 16 → Block 32) : (withKdf P R).Ok :=
  ⟨hP.dec_enc, hP.enc_length, hP.dec_sound⟩

theorem encrypt_withKdf {P : Prims} (hP : P.Ok) (junk : Nat → UInt8) (R : Block 16 → Block 32) (s : Block 16) (m : Bytes) :
    encryptString (withKdf P R) junk (some []) (toBytes s) m =
      if m = [] then .exc .invalidArgument else .ok (toBytes s ++ P.enc (toBytes (R s)) (nonceOf s) m) := by
  by_cases h : m = []
  · rw [if_pos h, h]
    rfl
  · rw [if_neg h, encryptString_eq (withKdf_ok hP R) junk [] _ m (toBytes_length s) h]
    simp only [withKdf, saltOf_toBytes]
    rfl

theorem decrypt_withKdf {P : Prims} (hP : P.Ok) (R : Block 16 → Block 32) (x : Bytes) :
    decryptString (withKdf P R) (some []) x =
      if x.length ≤ 32 then reject x
      else answer (P.dec (toBytes (R (saltOf x))) (nonceOf (saltOf x)) (x.drop 16)) := by
  unfold decryptString reject
  by_cases h : x.length ≤ 32
  · rw [if_pos h, if_pos h, if_pos (by unfold nonceSize aBytes; omega)]
  · rw [if_neg h, if_neg (by unfold nonceSize aBytes; omega), decryptBuf_eq _ _ _ _ _ (by omega) (Nat.le_refl _)]
    have e1 : (withKdf P R).kdf [] (x.take 16) = toBytes (R (saltOf x)) := by
      show toBytes (R (saltOf (x.take 16))) = _
      congr 2
      funext i
      unfold saltOf
      rw [List.getD_eq_getElem?_getD, List.getD_eq_getElem?_getD, List.getElem?_take_of_lt i.isLt]
    have e2 : (x.drop 16).take (x.length - 16) = x.drop 16 := List.take_of_length_le (by rw [List.length_drop])
    rw [e1, e2, nonceOf_saltOf (by omega)]
    show (fun d => _) <$> (match P.dec _ _ _ with | none => _ | some m => _) = _
    cases hd : P.dec (toBytes (R (saltOf x))) (x.take 12) (x.drop 16) with
    | none => rfl
    | some m =>
      have hl : m.length = x.length - 32 := by
        have h1 := hP.dec_sound _ _ _ _ hd
        have h2 := hP.enc_length (toBytes (R (saltOf x))) (x.take 12) m
        rw [← h1, List.length_drop] at h2
        omega
      have hp : plaintextLength x.length = m.length := by
        unfold plaintextLength
        rw [if_pos (by omega), hl]
      simp only [answer]
      rw [putAt_ok (by rw [hp]; simp), hp]
      simp

/-! ### The mixed worlds -/

/-- The world in which the keys of the salts in `A` are used as in the ideal world and the others as in the real world.
The attack loses when a salt comes for the second time. -/
def mix (P : Prims) (A : Block 16 → Bool) (R : Block 16 → Block 32) : List (Block 16) → List Bytes → Att → ℚ
  | _, _, .done b => bit b
  | U, C, .flip f => E fun b => mix P A R U C (f b)
  | U, C, .enc m0 m1 c =>
    if m0.length = m1.length then
      if m0 = [] then mix P A R U C (c (.exc .invalidArgument))
      else E fun s =>
        if U.contains s then 0
        else
          mix P A R (s :: U) ((toBytes s ++ P.enc (toBytes (R s)) (nonceOf s) (if A s then m1 else m0)) :: C)
            (c (.ok (toBytes s ++ P.enc (toBytes (R s)) (nonceOf s) (if A s then m1 else m0))))
    else mix P A R U C (c (.exc .logicError))
  | U, C, .dec x c =>
    if x.length ≤ 32 || C.contains x then mix P A R U C (c (reject x))
    else if A (saltOf x) then mix P A R U C (c (reject x))
    else mix P A R U C (c (answer (P.dec (toBytes (R (saltOf x))) (nonceOf (saltOf x)) (x.drop 16))))

/-- `A` and `s`, if `w`. -/
def plus (A : Block 16 → Bool) (s : Block 16) (w : Bool) : Block 16 → Bool := fun t => if t = s then w else A t

theorem reject_long {x : Bytes} (h : ¬ x.length ≤ 32) : reject x = .exc .runtimeError := if_neg h

/-- The attack on one key has the values of the mixed worlds. -/
theorem one_single (P : Prims) (s₀ : Block 16) (A : Block 16 → Bool) (R : Block 16 → Block 32) (w : Bool) (K : Block 32)
    (S : Att) : ∀ U C, oneVal P w (toBytes K) (nonceOf s₀) (single P s₀ A R U C S) =
      mix P (plus A s₀ w) (Function.update R s₀ K) U C S := by
  induction S with
  | done b => intro U C; rfl
  | flip f ih =>
    intro U C
    simp only [single, oneVal, mix, ih]
  | enc m0 m1 c ih =>
    intro U C
    simp only [single, mix]
    by_cases h1 : m0.length = m1.length
    · rw [if_pos h1, if_pos h1]
      by_cases h2 : m0 = []
      · rw [if_pos h2, if_pos h2, ih]
      · rw [if_neg h2, if_neg h2]
        simp only [oneVal]
        congr 1
        funext s
        by_cases h3 : U.contains s = true
        · rw [if_pos h3, if_pos h3]
          rfl
        · rw [if_neg h3, if_neg h3]
          by_cases h4 : s = s₀
          · subst h4
            rw [if_pos rfl]
            simp only [oneVal, ih, plus, if_true, Function.update_self]
          · rw [if_neg h4, ih]
            simp only [plus, h4, if_false, Function.update_of_ne (show s ≠ s₀ from h4)]
    · rw [if_neg h1, if_neg h1, ih]
  | dec x c ih =>
    intro U C
    simp only [single, mix]
    by_cases h1 : (decide (x.length ≤ 32) || C.contains x) = true
    · rw [if_pos h1, if_pos h1, ih]
    · rw [if_neg h1, if_neg h1]
      have hx : ¬ x.length ≤ 32 := by
        intro h
        exact h1 (by simp [h])
      by_cases h2 : saltOf x = s₀
      · rw [if_pos h2]
        simp only [oneVal, ih, plus, h2, if_true, Function.update_self]
        cases w
        · simp
        · simp only [if_true, answer, reject_long hx]
      · rw [if_neg h2]
        simp only [plus, h2, if_false, Function.update_of_ne h2]
        by_cases h3 : A (saltOf x) = true
        · rw [if_pos h3, if_pos h3, ih]
        · rw [if_neg h3, if_neg h3, ih]

/-- A key that is treated as in the ideal world is not used after its encryption. -/
theorem mix_update (P : Prims) (A : Block 16 → Bool) (R : Block 16 → Block 32) (s : Block 16) (K : Block 32)
    (hA : A s = true) (S : Att) : ∀ U C, s ∈ U → mix P A (Function.update R s K) U C S = mix P A R U C S := by
  induction S with
  | done b => intro U C _; rfl
  | flip f ih =>
    intro U C hU
    simp only [mix]
    congr 1
    funext b
    exact ih b U C hU
  | enc m0 m1 c ih =>
    intro U C hU
    simp only [mix]
    by_cases h1 : m0.length = m1.length
    · rw [if_pos h1, if_pos h1]
      by_cases h2 : m0 = []
      · rw [if_pos h2, if_pos h2, ih _ U C hU]
      · rw [if_neg h2, if_neg h2]
        congr 1
        funext t
        by_cases h3 : U.contains t = true
        · rw [if_pos h3, if_pos h3]
        · rw [if_neg h3, if_neg h3]
          have hne : t ≠ s := by
            rintro rfl
            exact h3 (by simpa using hU)
          rw [Function.update_of_ne hne, ih _ _ _ (List.mem_cons_of_mem _ hU)]
    · rw [if_neg h1, if_neg h1, ih _ U C hU]
  | dec x c ih =>
    intro U C hU
    simp only [mix]
    by_cases h1 : (decide (x.length ≤ 32) || C.contains x) = true
    · rw [if_pos h1, if_pos h1, ih _ U C hU]
    · rw [if_neg h1, if_neg h1]
      by_cases h3 : A (saltOf x) = true
      · rw [if_pos h3, if_pos h3, ih _ U C hU]
      · rw [if_neg h3, if_neg h3]
        have hne : saltOf x ≠ s := by
          rintro rfl
          exact h3 hA
        rw [Function.update_of_ne hne, ih _ U C hU]

/-- The part of `mix` after the salt is known. -/
def encStep (P : Prims) (A : Block 16 → Bool) (R : Block 16 → Block 32) (U : List (Block 16)) (C : List Bytes)
    (m0 m1 : Bytes) (c : Res Bytes → Att) (s : Block 16) : ℚ :=
  mix P A R (s :: U) ((toBytes s ++ P.enc (toBytes (R s)) (nonceOf s) (if A s then m1 else m0)) :: C)
    (c (.ok (toBytes s ++ P.enc (toBytes (R s)) (nonceOf s) (if A s then m1 else m0))))

theorem one_singleEnc (P : Prims) (s : Block 16) (A : Block 16 → Bool) (R : Block 16 → Block 32) (w : Bool) (K : Block 32)
    (U : List (Block 16)) (C : List Bytes) (m0 m1 : Bytes) (c : Res Bytes → Att) :
    oneVal P w (toBytes K) (nonceOf s) (singleEnc P s A R U C m0 m1 c) =
      encStep P (plus A s w) (Function.update R s K) U C m0 m1 c s := by
  unfold singleEnc encStep
  simp only [oneVal, one_single, plus, if_true, Function.update_self]

/-- After its encryption a key of the ideal world can be averaged out. -/
theorem E_encStep (P : Prims) (A : Block 16 → Bool) (U : List (Block 16)) (C : List Bytes) (m0 m1 : Bytes)
    (c : Res Bytes → Att) (s : Block 16) (hA : A s = true) :
    E (fun R => encStep P A R U C m0 m1 c s) = E (fun K : Block 32 => E (fun R =>
      mix P A R (s :: U) ((toBytes s ++ P.enc (toBytes K) (nonceOf s) m1) :: C)
        (c (.ok (toBytes s ++ P.enc (toBytes K) (nonceOf s) m1))))) := by
  rw [E_update s, E_comm]
  refine congrArg E (funext fun K => congrArg E (funext fun R => ?_))
  unfold encStep
  rw [mix_update P A R s K hA _ _ _ List.mem_cons_self, Function.update_self, hA, if_pos rfl]

theorem plus_false {A : Block 16 → Bool} {s : Block 16} (h : A s = false) : plus A s false = A := by
  funext t
  unfold plus
  split
  · next e => rw [e, h]
  · rfl

/-- One key after another is treated as in the ideal world. -/
theorem mix_hybrid {P : Prims} {S₀ : Att} {ε : ℚ} (h0 : 0 ≤ ε)
    (hε : ∀ N D, Derived P S₀ N D → adv1 P N D ≤ ε) (S : Att) : Rest S₀ S → ∀ (qe qd : Nat), AtMost qe qd S →
    ∀ (A : Block 16 → Bool) (U : List (Block 16)) (C : List Bytes), (∀ s ∈ U, A s = true) → Past U C →
      |E (fun R => mix P A R U C S) - E (fun R => mix P (fun _ => true) R U C S)| ≤ ((qe + qd : Nat) : ℚ) * ε := by
  have hmono : ∀ {a b : Nat}, a ≤ b → (a : ℚ) * ε ≤ (b : ℚ) * ε := fun h =>
    mul_le_mul_of_nonneg_right (by exact_mod_cast h) h0
  have hz : ∀ q : Nat, (0 : ℚ) ≤ (q : ℚ) * ε := fun q => mul_nonneg (Nat.cast_nonneg _) h0
  induction S with
  | done b =>
    intro _ qe qd _ A U C _ _
    simp only [mix, E_const, sub_self, abs_zero]
    exact hz _
  | flip f ih =>
    intro hr qe qd hq A U C hU hC
    cases hq with
    | flip hq =>
      simp only [mix]
      rw [E_comm, E_comm (fun R b => mix P (fun _ => true) R U C (f b))]
      exact abs_E_sub_le _ _ fun b => ih b (.flip b hr) qe qd (hq b) A U C hU hC
  | enc m0 m1 c ih =>
    intro hr qe qd hq A U C hU hC
    cases hq with
    | @enc qe _ _ _ _ hq =>
      by_cases h1 : m0.length = m1.length
      · by_cases h2 : m0 = []
        · have e : ∀ A' : Block 16 → Bool, E (fun R => mix P A' R U C (.enc m0 m1 c)) =
              E (fun R => mix P A' R U C (c (.exc .invalidArgument))) :=
            fun A' => congrArg E (funext fun R => by rw [mix, if_pos h1, if_pos h2])
          rw [e, e]
          exact le_trans (ih _ (.enc _ hr) qe qd (hq _) A U C hU hC) (hmono (by omega))
        · have key : ∀ s : Block 16,
              |(if U.contains s then 0 else E (fun R => encStep P A R U C m0 m1 c s)) -
                (if U.contains s then 0 else E (fun R => encStep P (fun _ => true) R U C m0 m1 c s))| ≤
              ((qe + 1 + qd : Nat) : ℚ) * ε := by
            intro s
            by_cases h3 : U.contains s = true
            · rw [if_pos h3, if_pos h3, sub_self, abs_zero]
              exact hz _
            · rw [if_neg h3, if_neg h3]
              have hs : s ∉ U := by simpa using h3
              -- the rest, when `s` is in the ideal world
              have hI : ∀ A' : Block 16 → Bool, A' s = true → (∀ t ∈ U, A' t = true) →
                  |E (fun R => encStep P A' R U C m0 m1 c s) -
                    E (fun R => encStep P (fun _ => true) R U C m0 m1 c s)| ≤ ((qe + qd : Nat) : ℚ) * ε := by
                intro A' hA' hU'
                rw [E_encStep P A' U C m0 m1 c s hA', E_encStep P (fun _ => true) U C m0 m1 c s rfl]
                apply abs_E_sub_le
                intro K
                refine ih _ (.enc _ hr) qe qd (hq _) A' _ _ ?_ ?_
                · intro t ht
                  rcases List.mem_cons.mp ht with rfl | ht
                  · exact hA'
                  · exact hU' t ht
                · intro x hx
                  rcases List.mem_cons.mp hx with rfl | hx
                  · exact ⟨s, List.mem_cons_self, _, rfl⟩
                  · obtain ⟨t, ht, e, he⟩ := hC x hx
                    exact ⟨t, List.mem_cons_of_mem _ ht, e, he⟩
              by_cases h4 : A s = true
              · exact le_trans (hI A h4 hU) (hmono (by omega))
              · have h4' : A s = false := by simpa using h4
                have hstep : |E (fun R => encStep P A R U C m0 m1 c s) -
                    E (fun R => encStep P (plus A s true) R U C m0 m1 c s)| ≤ ε := by
                  rw [E_update s, E_update s (fun R => encStep P (plus A s true) R U C m0 m1 c s)]
                  apply abs_E_sub_le
                  intro R
                  have := hε _ _ (Derived.first s A R U C hr h1 hC hs)
                  unfold adv1 at this
                  simp only [one_singleEnc, plus_false h4'] at this
                  exact this
                have hrest := hI (plus A s true) (by simp [plus]) (fun t ht => by
                  unfold plus
                  split
                  · rfl
                  · exact hU t ht)
                have t := abs_sub_le (E (fun R => encStep P A R U C m0 m1 c s))
                  (E (fun R => encStep P (plus A s true) R U C m0 m1 c s))
                  (E (fun R => encStep P (fun _ => true) R U C m0 m1 c s))
                have e : ((qe + 1 + qd : Nat) : ℚ) * ε = ε + ((qe + qd : Nat) : ℚ) * ε := by
                  push_cast
                  ring
                rw [e]
                exact le_trans t (add_le_add hstep hrest)
          have e : ∀ A' : Block 16 → Bool, E (fun R => mix P A' R U C (.enc m0 m1 c)) =
              E (fun s => if U.contains s then 0 else E (fun R => encStep P A' R U C m0 m1 c s)) := by
            intro A'
            simp only [mix, h1, if_true, if_neg h2]
            rw [E_comm]
            congr 1
            funext s
            by_cases h3 : U.contains s = true
            · simp only [h3, if_true, E_const]
            · simp only [h3]
              rfl
          rw [e, e]
          exact abs_E_sub_le _ _ key
      · simp only [mix, if_neg h1]
        exact le_trans (ih _ (.enc _ hr) qe qd (hq _) A U C hU hC) (hmono (by omega))
  | dec x c ih =>
    intro hr qe qd hq A U C hU hC
    cases hq with
    | @dec _ qd _ _ hq =>
      by_cases h1 : (decide (x.length ≤ 32) || C.contains x) = true
      · simp only [mix, h1, if_true]
        exact le_trans (ih _ (.dec _ hr) qe qd (hq _) A U C hU hC) (hmono (by omega))
      · have hI : ∀ A' : Block 16 → Bool, A' (saltOf x) = true → (∀ t ∈ U, A' t = true) →
            |E (fun R => mix P A' R U C (.dec x c)) - E (fun R => mix P (fun _ => true) R U C (.dec x c))| ≤
              ((qe + qd : Nat) : ℚ) * ε := by
          intro A' hA' hU'
          simp only [mix, if_neg h1, hA', if_true]
          exact ih _ (.dec _ hr) qe qd (hq _) A' U C hU' hC
        by_cases h4 : A (saltOf x) = true
        · exact le_trans (hI A h4 hU) (hmono (by omega))
        · have h4' : A (saltOf x) = false := by simpa using h4
          have hs : saltOf x ∉ U := fun h => h4 (hU _ h)
          have hstep : |E (fun R => mix P A R U C (.dec x c)) -
              E (fun R => mix P (plus A (saltOf x) true) R U C (.dec x c))| ≤ ε := by
            rw [E_update (saltOf x), E_update (saltOf x) (fun R => mix P (plus A (saltOf x) true) R U C (.dec x c))]
            apply abs_E_sub_le
            intro R
            have := hε _ _ (Derived.rest (saltOf x) A R U C hr hC hs)
            unfold adv1 at this
            simp only [one_single, plus_false h4'] at this
            exact this
          have hrest := hI (plus A (saltOf x) true) (by simp [plus]) (fun t ht => by
            unfold plus
            split
            · rfl
            · exact hU t ht)
          have t := abs_sub_le (E (fun R => mix P A R U C (.dec x c)))
            (E (fun R => mix P (plus A (saltOf x) true) R U C (.dec x c)))
            (E (fun R => mix P (fun _ => true) R U C (.dec x c)))
          have e : ((qe + (qd + 1) : Nat) : ℚ) * ε = ε + ((qe + qd : Nat) : ℚ) * ε := by
            push_cast
            ring
          rw [e]
          exact le_trans t (add_le_add hstep hrest)

end Verif.Cipher.Game
