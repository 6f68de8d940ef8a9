import Verif.Rsa.Read
import Verif.Rsa.ModelIo
import Verif.Io.PkSafe

/-!
# Keys in texts, on limbs: the parser and the writer compute what `Verif.Io` says
-/

namespace Verif.Rsa

open Verif Verif.Bignum Verif.Tdp Verif.Io

/-! ## Lengths -/

theorem decode_length {src out : Bytes} {dst : Option Nat} {n : Nat} (hs : src.length < 2 ^ 63) (h : decode dst src = .ok (.ok out n)) : out.length ≤ src.length := by
  rcases hsc : scan 0 src 0 0 with _ | ⟨m, j⟩
  · unfold decode at h
    rw [hsc] at h
    cases h
  · obtain ⟨a, h1, _, _, h4, h5, h6⟩ := decode_spec hs hsc
    have hv : (vals src).length ≤ src.length := by
      unfold vals
      rw [List.length_map]
      exact List.length_filter_le _ _
    rw [h1, List.length_append, List.length_replicate, ← h4] at hv
    rw [h6] at h
    have hfin : ∀ x y, Res.ok (B64.ok x y) = Res.ok (B64.ok out n) → x = out := fun x y h => by cases h; rfl
    split at h
    · rw [← hfin _ _ h]; exact Nat.zero_le _
    · cases dst with
      | none => cases h
      | some d =>
        simp only at h
        split at h
        · cases h
        · rw [← hfin _ _ h]
          omega

theorem pemDecode_length {body buf : Bytes} {u n : Nat} (hs : body.length < 2 ^ 63) (h : pemDecode body u = .ok (.ok buf n)) : buf.length ≤ body.length := by
  have fin : ∀ len, (decode (some len) body >>= fun r => match r with
      | .ok out _ => .ok (.ok out u)
      | _ => (.ok .invalidData : Res PemR)) = .ok (.ok buf n) → buf.length ≤ body.length := by
    intro len h2
    rcases hd2 : decode (some len) body with r2 | e | _
    · rw [hd2, Res.bind_ok] at h2
      rcases r2 with ⟨out, m⟩ | _ | _
      · cases h2
        exact decode_length hs hd2
      · cases h2
      · cases h2
    · rw [hd2] at h2; cases h2
    · rw [hd2] at h2; cases h2
  unfold pemDecode at h
  rcases hd : decode none body with r | e | _
  · rw [hd, Res.bind_ok] at h
    rcases r with ⟨_, len⟩ | len | _
    · exact fin len h
    · exact fin len h
    · cases h
  · rw [hd] at h; cases h
  · rw [hd] at h; cases h

theorem bind_ok_inv {α β : Type} {x : Res α} {f : α → Res β} {b : β} (h : (x >>= f) = .ok b) : ∃ a, x = .ok a ∧ f a = .ok b := by
  cases x with
  | ok a => exact ⟨a, rfl, h⟩
  | exc e => cases h
  | ub => cases h

theorem pemRead_length {header footer data buf : Bytes} {n : Nat} (hs : data.length < 2 ^ 63) (h : pemRead header footer data = .ok (.ok buf n)) :
    buf.length ≤ data.length := by
  unfold pemRead at h
  obtain ⟨s1, _, h⟩ := bind_ok_inv h
  cases s1 with
  | none => cases h
  | some s1 =>
  simp only at h
  obtain ⟨s2, _, h⟩ := bind_ok_inv h
  cases s2 with
  | none => cases h
  | some s2 =>
  simp only at h
  split at h
  · cases h
  unfold pemBody at h
  obtain ⟨a, _, h⟩ := bind_ok_inv h
  obtain ⟨b, _, h⟩ := bind_ok_inv h
  obtain ⟨c, _, h⟩ := bind_ok_inv h
  split at h
  · cases h
  simp only at h
  obtain ⟨d, _, h⟩ := bind_ok_inv h
  obtain ⟨e, _, h⟩ := bind_ok_inv h
  obtain ⟨f, _, h⟩ := bind_ok_inv h
  split at h
  · cases h
  split at h
  · cases h
  have hl : (slice data (b + 1) s2).length ≤ data.length := by
    unfold slice
    rw [List.length_drop, List.length_take]
    omega
  exact le_trans (pemDecode_length (lt_of_le_of_lt hl hs) h) hl

theorem readPem_length {header footer data buf : Bytes} {n : Nat} (hs : data.length < 2 ^ 63) (h : readPem header footer data = .ok (.ok buf n)) :
    buf.length ≤ data.length := by
  unfold readPem at h
  split at h
  · exact pemRead_length hs h
  · cases h

/-! ## Parsing -/

/-- Both parsers fail, or both succeed with related results. -/
def Both {α β : Type} (R : α → β → Prop) (x : Res α) (y : Res β) : Prop :=
  (x = err ∧ y = err) ∨ ∃ a b, x = .ok a ∧ y = .ok b ∧ R a b

theorem Both.bind {α β γ δ : Type} {R : α → β → Prop} {S : γ → δ → Prop} {x : Res α} {y : Res β} {f : α → Res γ} {g : β → Res δ} (h : Both R x y)
    (hf : ∀ a b, R a b → Both S (f a) (g b)) : Both S (x >>= f) (y >>= g) := by
  rcases h with ⟨rfl, rfl⟩ | ⟨a, b, rfl, rfl, h⟩
  · exact .inl ⟨rfl, rfl⟩
  · exact hf a b h

theorem Both.err {α β : Type} {R : α → β → Prop} : Both R (Io.err : Res α) (Io.err : Res β) := .inl ⟨rfl, rfl⟩

theorem Both.ite {α β : Type} {R : α → β → Prop} {c : Prop} [Decidable c] {x x' : Res α} {y y' : Res β} (h : c → Both R x y) (h' : ¬ c → Both R x' y') :
    Both R (if c then x else x') (if c then y else y') := by
  split
  · exact h ‹_›
  · exact h' ‹_›

/-- The same parser on both sides. -/
theorem Both.same {α : Type} {P : α → Prop} {x : Res α} (h : x = Io.err ∨ ∃ a, x = .ok a ∧ P a) : Both (fun a b => a = b ∧ P a) x x := by
  rcases h with h | ⟨a, h, hp⟩
  · exact .inl ⟨h, h⟩
  · exact .inr ⟨a, a, h, h, rfl, hp⟩

theorem getTag_both (r : Bytes) (t : UInt8) :
    Both (fun a b : Nat × Bytes => a = b ∧ (a.1 ≤ a.2.length ∧ a.2.length ≤ r.length)) (getTag r t) (getTag r t) :=
  Both.same (by
    rcases c47_tag r t with h | ⟨n, rest, h, h1, _, h2⟩
    · exact .inl h
    · exact .inr ⟨(n, rest), h, h1, h2.le⟩)

theorem getInt_both (r : Bytes) : Both (fun a b : Nat × Bytes => a = b ∧ a.2.length ≤ r.length) (getInt r) (getInt r) :=
  Both.same (by
    rcases c47_int r with h | ⟨n, rest, h, _, h2⟩
    · exact .inl h
    · exact .inr ⟨(n, rest), h, h2.le⟩)

theorem getBits_both (r : Bytes) : Both (fun a b : Nat × Bytes => a = b ∧ a.2.length ≤ r.length) (getBits r) (getBits r) :=
  Both.same (by
    rcases c47_bits r with h | ⟨n, rest, h, _, _, h2⟩
    · exact .inl h
    · exact .inr ⟨(n, rest), h, h2.le⟩)

theorem getPkAlg_both (r : Bytes) : Both (fun a b : Bytes => a = b ∧ a.length ≤ r.length) (getPkAlg r) (getPkAlg r) :=
  Both.same (by
    rcases getPkAlg_safe r with h | ⟨rest, h, h2⟩
    · exact .inl h
    · exact .inr ⟨rest, h, h2.le⟩)

/-- An integer as the parser makes it. -/
structure Read (X : Mpi) : Prop where
  num : Num 4400 X
  tight : Tight X
  some : X.p ≠ []

theorem getMpi_both {r : Bytes} (hr : r.length ≤ 35000) :
    Both (fun (a : Mpi × Bytes) (b : Nat × Bytes) => Read a.1 ∧ b = (a.1.mag, a.2) ∧ a.2.length ≤ r.length) (getMpiL r) (getMpi r) := by
  unfold getMpiL getMpi
  refine (getTag_both r 0x02).bind ?_
  rintro a _ ⟨rfl, h1, h2⟩
  have ht : takeN a.2 a.1 = .ok (a.2.take a.1) := takeN_ok h1
  have hl : (a.2.take a.1).length ≤ 8 * 4400 := by rw [List.length_take]; omega
  obtain ⟨X, x1, x2, x3, x4, x5⟩ := tight_read (k := 4400) (by omega) (by omega) hl
  have hm := c54_model_read Mpi.null_WF (a.2.take a.1)
  rw [x1] at hm
  rw [ht, Res.bind_ok, Res.bind_ok, x1]
  cases hr' : Io.mpiRead (a.2.take a.1) with
  | none => rw [hr'] at hm; cases hm
  | some v =>
    rw [hr'] at hm
    obtain ⟨R, r1, _, r3⟩ := hm
    cases r1
    have hv : X.mag = v := by
      have := x2.v.val
      rw [r3] at this
      exact_mod_cast this.symm
    refine .inr ⟨(X, a.2.drop a.1), (v, a.2.drop a.1), rfl, rfl, ⟨x2, x3, x5⟩, by rw [hv], ?_⟩
    show (a.2.drop a.1).length ≤ _
    rw [List.length_drop]
    omega

/-- A context as the parser of private keys leaves it. -/
structure PrivCtx (c : Ctx) : Prop where
  good : Good c
  trim : Trim c
  priv : ¬ (c.P.p = [] ∨ c.Q.p = [] ∨ c.D.p = [])
  check : Tdp.checkPriv (abs c) = true

theorem small_num {X : Mpi} {k : Nat} (h : Read X) (hk : 1 ≤ k) (hm : X.mag < 256 ^ (8 * k)) : Num k X := by
  refine ⟨h.num.wf, h.num.pos, rfl, ?_⟩
  rw [h.tight h.some]
  have : limbs X.mag ≤ k := by
    rw [limbs_le_iff]
    rwa [show (W64 : Nat) ^ k = 256 ^ (8 * k) by rw [pow_mul]; exact congrArg (· ^ k) (show W64 = 256 ^ 8 by norm_num)]
  omega

theorem parsePkcs1_both {key : Bytes} (hk : key.length ≤ 35000) : Both (fun c k => PrivCtx c ∧ k = abs c) (parsePkcs1L key) (parsePkcs1 key) := by
  unfold parsePkcs1L parsePkcs1
  refine (getTag_both key 0x30).bind ?_
  rintro a _ ⟨rfl, _, ha⟩
  refine (getInt_both _).bind ?_
  rintro v _ ⟨rfl, hv⟩
  rw [List.length_take] at hv
  refine Both.ite (fun _ => .err) fun _ => ?_
  refine (getMpi_both (by omega)).bind ?_
  rintro n _ ⟨hN, rfl, hn⟩
  refine (getMpi_both (by omega)).bind ?_
  rintro e _ ⟨hE, rfl, he⟩
  refine (getMpi_both (by omega)).bind ?_
  rintro d _ ⟨hD, rfl, hd⟩
  refine (getMpi_both (by omega)).bind ?_
  rintro p _ ⟨hP, rfl, hp⟩
  refine (getMpi_both (by omega)).bind ?_
  rintro q _ ⟨hQ, rfl, hq⟩
  refine (getMpi_both (by omega)).bind ?_
  rintro dp _ ⟨hDP, rfl, hdp⟩
  refine (getMpi_both (by omega)).bind ?_
  rintro dq _ ⟨hDQ, rfl, hdq⟩
  refine (getMpi_both (by omega)).bind ?_
  rintro qp _ ⟨hQP, rfl, -⟩
  refine Both.ite (fun _ => .err) fun _ => ?_
  have hnn : ¬ (p.1.p = [] ∨ q.1.p = [] ∨ d.1.p = []) := by
    rintro (h | h | h)
    · exact hP.some h
    · exact hQ.some h
    · exact hD.some h
  generalize hc : ({ Ctx.init with len := size n.1, N := n.1, E := e.1, D := d.1, P := p.1, Q := q.1, DP := dp.1, DQ := dq.1, QP := qp.1 } : Ctx) = c
  have habs : abs c = { len := mpiSize n.1.mag, N := n.1.mag, E := e.1.mag, priv := some { D := d.1.mag, P := p.1.mag, Q := q.1.mag, DP := dp.1.mag, DQ := dq.1.mag, QP := qp.1.mag }, blind := none } := by
    subst hc
    unfold abs
    simp only
    rw [if_neg hnn, if_pos (show Ctx.init.Vf.p = [] from rfl), size_spec hN.num.wf]
  have hrun := checkPriv_sized (c := c) (kp := 4400) (kq := 4400) (kd := 4400) (ke := 4400) (k := 4400)
    (by subst hc; exact ⟨hN.num, hE.num, hD.num, hP.num, hQ.num, hDP.num, hDQ.num, hQP.num⟩) (by omega) (by omega)
  simp only
  rw [← habs]
  by_cases hchk : Tdp.checkPriv (abs c) = true
  · rw [if_pos hchk] at hrun ⊢
    have hrun : checkPriv c = .ok () := hrun
    rw [hrun]
    refine .inr ⟨c, abs c, rfl, rfl, ⟨?_, ?_, ?_, hchk⟩, rfl⟩
    · have hpr : (abs c).priv = some { D := d.1.mag, P := p.1.mag, Q := q.1.mag, DP := dp.1.mag, DQ := dq.1.mag, QP := qp.1.mag } := by rw [habs]
      obtain ⟨f0, -, -, -, -, -, -, g2, g3, g4, g5, g6⟩ := checkPriv_facts hpr hchk
      obtain ⟨-, e1, e2, -⟩ := checkPub_facts f0
      have eN : (abs c).N = n.1.mag := by rw [habs]
      have eE : (abs c).E = e.1.mag := by rw [habs]
      rw [eN] at e1 e2 g2 g3 g4 g5 g6
      rw [eE] at e1
      simp only at g2 g3 g4 g5 g6
      have hle : (256 : Nat) ^ 1024 ≤ 256 ^ (8 * 300) := Nat.pow_le_pow_right (by omega) (by omega)
      generalize (256 : Nat) ^ 1024 = b at *
      have sm : ∀ X : Mpi, Read X → X.mag ≤ n.1.mag → Num 300 X := fun X hX hx => small_num hX (by omega) (by omega)
      subst hc
      exact ⟨sm _ hN (le_refl _), (sm _ hE e1.le).mono (by omega), hD.num.mono (by omega), sm _ hP g2, sm _ hQ g3, sm _ hDP g4, sm _ hDQ g5, sm _ hQP g6,
        cacheOk_null, cacheOk_null, cacheOk_null, num_null _, num_null _, show limbs Mpi.null.mag ≤ 301 by decide, show limbs Mpi.null.mag ≤ 301 by decide⟩
    · subst hc
      exact ⟨hN.tight, hP.tight, hQ.tight⟩
    · subst hc
      exact hnn
  · rw [if_neg hchk] at hrun ⊢
    obtain ⟨x, hrun⟩ := hrun
    rw [hrun]
    exact .inl ⟨rfl, rfl⟩

theorem parsePkcs8_both {key : Bytes} (hk : key.length ≤ 35000) : Both (fun c k => PrivCtx c ∧ k = abs c) (parsePkcs8L key) (parsePkcs8 key) := by
  unfold parsePkcs8L parsePkcs8
  refine (getTag_both key 0x30).bind ?_
  rintro a _ ⟨rfl, _, ha⟩
  refine (getInt_both _).bind ?_
  rintro v _ ⟨rfl, hv⟩
  rw [List.length_take] at hv
  refine Both.ite (fun _ => .err) fun _ => ?_
  refine (getPkAlg_both _).bind ?_
  rintro p _ ⟨rfl, hp⟩
  refine (getTag_both _ _).bind ?_
  rintro o _ ⟨rfl, h1, h2⟩
  refine Both.ite (fun _ => .err) fun _ => ?_
  rw [takeN_ok h1, Res.bind_ok, Res.bind_ok]
  exact parsePkcs1_both (by rw [List.length_take]; omega)

theorem parseDer_both {key : Bytes} (hk : key.length ≤ 35000) : Both (fun c k => PrivCtx c ∧ k = abs c) (parseDerL key) (parseDer key) := by
  unfold parseDerL parseDer
  rcases parsePkcs8_both hk with ⟨h1, h2⟩ | ⟨c, k, h1, h2, h3⟩
  · rw [h1, h2]
    simp only [Io.err]
    rcases parsePkcs1_both hk with ⟨h1, h2⟩ | ⟨c, k, h1, h2, h3⟩
    · rw [h1, h2]
      exact .inl ⟨rfl, rfl⟩
    · rw [h1, h2]
      exact .inr ⟨c, k, rfl, rfl, h3⟩
  · rw [h1, h2]
    exact .inr ⟨c, k, rfl, rfl, h3⟩

theorem parseKey_both {key : Bytes} (hk : key.length ≤ 35000) : Both (fun c k => PrivCtx c ∧ k = abs c) (parseKeyL key) (parseKey key) := by
  unfold parseKeyL parseKey
  have h63 : key.length < 2 ^ 63 := by omega
  obtain ⟨r, hr⟩ := readPem_safe privHeader privFooter key h63
  obtain ⟨r2, hr2⟩ := readPem_safe pkcs8Header pkcs8Footer key h63
  rw [hr, Res.bind_ok, Res.bind_ok]
  cases r with
  | ok buf u => exact parsePkcs1_both (le_trans (readPem_length h63 hr) hk)
  | noHeader =>
    simp only
    rw [hr2, Res.bind_ok, Res.bind_ok]
    cases r2 with
    | ok buf u => exact parsePkcs8_both (le_trans (readPem_length h63 hr2) hk)
    | noHeader => exact parseDer_both hk
    | encrypted => exact .err
    | invalidData => exact .err
  | encrypted => exact .err
  | invalidData => exact .err

/-- The import of a private key. -/
theorem importPrivate_both {sk : Bytes} (hl : sk.length ≤ 34999) :
    Both (fun v k => GoodInv v ∧ k = abs v.ctx ∧ Trim v.ctx ∧ Tdp.checkPriv k = true) (importPrivateL sk) (importPrivate sk) := by
  unfold importPrivateL importPrivate
  refine (parseKey_both (by rw [List.length_append, List.length_singleton]; omega)).bind ?_
  rintro c _ ⟨hc, rfl⟩
  obtain ⟨d, d1, d2, d3, d4, _⟩ := freshCopy_run hc.good hc.trim
  have hnn : ¬ (d.P.p = [] ∨ d.Q.p = [] ∨ d.D.p = []) := by
    intro hh
    have h1 := congrArg Tdp.Rsa.priv d4
    unfold abs at h1
    simp only at h1
    rw [if_pos hh, if_neg hc.priv] at h1
    cases h1
  have hp := checkPriv_pub hc.check
  have hm := mkInv_run d2 hnn
  rw [d4, if_pos hp] at hm
  obtain ⟨v, v1, v2, v3⟩ := hm
  have hcopy : Tdp.rsaCopy (abs c) = abs c := rfl
  rw [d1, hcopy, if_pos hp]
  refine .inr ⟨v, abs c, v1, rfl, v3, by rw [v2, d4], by rw [v2]; exact d3, hc.check⟩

/-- A context as the parser of public keys leaves it. -/
theorem getRsaPubkey_both {r : Bytes} (hr : r.length ≤ 35000) :
    Both (fun c k => (PoolKey c ∧ (c.P.p = [] ∨ c.Q.p = [] ∨ c.D.p = [])) ∧ k = abs c) (getRsaPubkeyL r) (getRsaPubkey r) := by
  unfold getRsaPubkeyL getRsaPubkey
  refine (getTag_both r 0x30).bind ?_
  rintro a _ ⟨rfl, _, ha⟩
  refine Both.ite (fun _ => .err) fun _ => ?_
  refine (getMpi_both (by omega)).bind ?_
  rintro n _ ⟨hN, rfl, hn⟩
  refine (getMpi_both (by omega)).bind ?_
  rintro e _ ⟨hE, rfl, he⟩
  refine Both.ite (fun _ => .err) fun _ => ?_
  have hnull : (Ctx.init.P.p = [] ∨ Ctx.init.Q.p = [] ∨ Ctx.init.D.p = []) := .inl rfl
  generalize hc : ({ Ctx.init with N := n.1, E := e.1 } : Ctx) = c
  have habs : abs { c with len := size n.1 } = { len := mpiSize n.1.mag, N := n.1.mag, E := e.1.mag, priv := none, blind := none } := by
    subst hc
    unfold abs
    simp only
    rw [if_pos hnull, if_pos (show Ctx.init.Vf.p = [] from rfl), size_spec hN.num.wf]
  have hrun := checkPub_run (c := c) (kn := 4400) (ke := 4400) (by subst hc; exact hN.num) (by subst hc; exact hE.num)
  have hsame : Tdp.checkPub (abs c) = Tdp.checkPub (abs { c with len := size n.1 }) := rfl
  rw [hsame] at hrun
  simp only
  rw [← habs]
  by_cases hchk : Tdp.checkPub (abs { c with len := size n.1 }) = true
  · rw [if_pos hchk] at hrun ⊢
    rw [hrun]
    refine .inr ⟨{ c with len := size n.1 }, _, rfl, rfl, ⟨⟨?_, ?_, hchk⟩, ?_⟩, rfl⟩
    · obtain ⟨-, e1, e2, -⟩ := checkPub_facts hchk
      rw [habs] at e1 e2
      simp only at e1 e2
      have hle : (256 : Nat) ^ 1024 ≤ 256 ^ (8 * 300) := Nat.pow_le_pow_right (by omega) (by omega)
      generalize (256 : Nat) ^ 1024 = b at *
      have sm : ∀ X : Mpi, Read X → X.mag ≤ n.1.mag → Num 300 X := fun X hX hx => small_num hX (by omega) (by omega)
      subst hc
      exact ⟨sm _ hN (le_refl _), (sm _ hE e1.le).mono (by omega), num_null _, num_null _, num_null _, num_null _, num_null _, num_null _,
        cacheOk_null, cacheOk_null, cacheOk_null, num_null _, num_null _, show limbs Mpi.null.mag ≤ 301 by decide, show limbs Mpi.null.mag ≤ 301 by decide⟩
    · subst hc
      exact ⟨hN.tight, Tight.null, Tight.null⟩
    · subst hc
      exact hnull
  · rw [if_neg hchk] at hrun ⊢
    rw [hrun]
    exact .inl ⟨rfl, rfl⟩

theorem parseSubpubkey_both {r : Bytes} (hr : r.length ≤ 35000) :
    Both (fun c k => (PoolKey c ∧ (c.P.p = [] ∨ c.Q.p = [] ∨ c.D.p = [])) ∧ k = abs c) (parseSubpubkeyL r) (parseSubpubkey r) := by
  unfold parseSubpubkeyL parseSubpubkey
  refine (getTag_both r 0x30).bind ?_
  rintro a _ ⟨rfl, _, ha⟩
  refine (getPkAlg_both _).bind ?_
  rintro p _ ⟨rfl, hp⟩
  rw [List.length_take] at hp
  refine (getBits_both _).bind ?_
  rintro b _ ⟨rfl, hb⟩
  exact Both.ite (fun _ => .err) fun _ => getRsaPubkey_both (by omega)

theorem parsePublicKey_both {key : Bytes} (hk : key.length ≤ 35000) :
    Both (fun c k => (PoolKey c ∧ (c.P.p = [] ∨ c.Q.p = [] ∨ c.D.p = [])) ∧ k = abs c) (parsePublicKeyL key) (parsePublicKey key) := by
  unfold parsePublicKeyL parsePublicKey
  have h63 : key.length < 2 ^ 63 := by omega
  obtain ⟨r, hr⟩ := readPem_safe pubHeader pubFooter key h63
  rw [hr, Res.bind_ok, Res.bind_ok]
  cases r with
  | ok buf u => exact parseSubpubkey_both (le_trans (readPem_length h63 hr) hk)
  | noHeader => exact parseSubpubkey_both hk
  | encrypted => exact .err
  | invalidData => exact .err

/-- The import of a public key. -/
theorem importPublic_both {pk : Bytes} (hl : pk.length ≤ 34999) : Both (fun c k => PoolKey c ∧ k = abs c) (importPublicL pk) (importPublic pk) := by
  unfold importPublicL importPublic
  refine (parsePublicKey_both (by rw [List.length_append, List.length_singleton]; omega)).bind ?_
  rintro c _ ⟨⟨hc, hnull⟩, rfl⟩
  obtain ⟨d, d1, d2, d3, d4, _⟩ := freshCopy_run hc.good hc.trim
  have hrun := checkPub_run d2.N d2.E
  rw [d4, if_pos hc.pub] at hrun
  have hcopy : Tdp.rsaCopy (abs c) = abs c := rfl
  rw [d1, hcopy, if_pos hc.pub]
  refine .inr ⟨d, abs c, ?_, rfl, ⟨d2, d3, by rw [d4]; exact hc.pub⟩, d4.symm⟩
  simp only [toRes, Res.bind_ok]
  rw [hrun]
  rfl

/-! ## Writing -/

theorem writeMpi_same {X : Mpi} (hX : X.WF) (hn : X.neg = false) (w : Wr) : writeMpiL w X = writeMpi w X.mag := by
  unfold writeMpiL writeMpi
  simp only
  rw [size_spec hX, hn, c54_model_write hX]
  cases mpiWrite X.mag (mpiSize X.mag) <;> rfl

/-- The public members of a context. -/
structure PubNums (c : Ctx) : Prop where
  N : c.N.WF ∧ c.N.neg = false
  E : c.E.WF ∧ c.E.neg = false

theorem publicKey_same {c : Ctx} (h : PubNums c) : publicKeyL c = publicKey (abs c) := by
  have e1 : (abs c).N = c.N.mag := rfl
  have e2 : (abs c).E = c.E.mag := rfl
  have hp : ∀ w, writeRsaPubkeyL w c = writeRsaPubkey w (abs c) := fun w => by
    unfold writeRsaPubkeyL writeRsaPubkey
    simp only [writeMpi_same h.N.1 h.N.2, writeMpi_same h.E.1 h.E.2, e1, e2]
  have hd : ∀ s, writePubkeyDerL c s = writePubkeyDer (abs c) s := fun s => by
    unfold writePubkeyDerL writePubkeyDer
    simp only [hp]
  unfold publicKeyL publicKey writePubkeyPem
  rw [hd]
  simp only [bind_assoc]

/-- All integers of a context are non-negative. -/
structure PrivNums (c : Ctx) : Prop extends PubNums c where
  D : c.D.WF ∧ c.D.neg = false
  P : c.P.WF ∧ c.P.neg = false
  Q : c.Q.WF ∧ c.Q.neg = false
  DP : c.DP.WF ∧ c.DP.neg = false
  DQ : c.DQ.WF ∧ c.DQ.neg = false
  QP : c.QP.WF ∧ c.QP.neg = false
  priv : ¬ (c.P.p = [] ∨ c.Q.p = [] ∨ c.D.p = [])

theorem privateKey_same {c : Ctx} (h : PrivNums c) : privateKeyL c = privateKey (abs c) := by
  have e1 : (abs c).N = c.N.mag := rfl
  have e2 : (abs c).E = c.E.mag := rfl
  have e3 : (abs c).priv = some { D := c.D.mag, P := c.P.mag, Q := c.Q.mag, DP := c.DP.mag, DQ := c.DQ.mag, QP := c.QP.mag } := by
    unfold abs
    simp only
    rw [if_neg h.priv]
  have hd : ∀ s, writeKeyDerL c s = writeKeyDer (abs c) s := fun s => by
    unfold writeKeyDerL writeKeyDer
    simp only [writeMpi_same h.N.1 h.N.2, writeMpi_same h.E.1 h.E.2, writeMpi_same h.D.1 h.D.2, writeMpi_same h.P.1 h.P.2, writeMpi_same h.Q.1 h.Q.2,
      writeMpi_same h.DP.1 h.DP.2, writeMpi_same h.DQ.1 h.DQ.2, writeMpi_same h.QP.1 h.QP.2, e1, e2, e3, Option.getD_some]
  unfold privateKeyL privateKey writeKeyPem
  rw [hd]
  simp only [bind_assoc]

theorem Good.privNums {c : Ctx} (h : Good c) (hp : ¬ (c.P.p = [] ∨ c.Q.p = [] ∨ c.D.p = [])) : PrivNums c where
  N := ⟨h.N.wf, h.N.pos⟩
  E := ⟨h.E.wf, h.E.pos⟩
  D := ⟨h.D.wf, h.D.pos⟩
  P := ⟨h.P.wf, h.P.pos⟩
  Q := ⟨h.Q.wf, h.Q.pos⟩
  DP := ⟨h.DP.wf, h.DP.pos⟩
  DQ := ⟨h.DQ.wf, h.DQ.pos⟩
  QP := ⟨h.QP.wf, h.QP.pos⟩
  priv := hp

end Verif.Rsa
