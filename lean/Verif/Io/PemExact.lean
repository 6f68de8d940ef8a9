import Verif.Io.PemProps
import Verif.Io.Base64Exact
import Verif.Io.DerExact

/-!
# Which texts the PEM reader accepts
-/

namespace Verif.Io.PemExact

open Verif Verif.Tdp

/-- The ends of the header line. -/
def eols : List Bytes := [[0x0a], [0x20, 0x0a], [0x0d, 0x0a], [0x20, 0x0d, 0x0a]]

/-- `pat` does not begin before position `i`. -/
def First (pat t : Bytes) (i : Nat) : Prop := ∀ j, j < i → ¬pat <+: t.drop j

/-- The text `t`: anything, the header, the end of a line, the body, the footer, anything. The first header and the first footer count, and the body
    is neither empty nor declared to be encrypted. -/
structure Armour (hdr ftr t pre eol body post : Bytes) : Prop where
  text : t = pre ++ (hdr ++ (eol ++ (body ++ (ftr ++ post))))
  line : eol ∈ eols
  nonempty : body ≠ []
  clear : ¬procType <+: body
  header : First hdr t pre.length
  footer : First ftr t (pre.length + hdr.length + eol.length + body.length)

/-! ## The end of the header line -/

def eolLen (w : Bytes) : Option Nat :=
  match w with
  | 0x0a :: _ => some 1
  | 0x20 :: 0x0a :: _ => some 2
  | 0x0d :: 0x0a :: _ => some 2
  | 0x20 :: 0x0d :: 0x0a :: _ => some 3
  | _ => none

theorem eolLen_some {w : Bytes} {n : Nat} (h : eolLen w = some n) : ∃ eol ∈ eols, ∃ z, w = eol ++ z ∧ n = eol.length := by
  unfold eolLen at h
  split at h
  · cases h; exact ⟨[0x0a], by decide, _, rfl, rfl⟩
  · cases h; exact ⟨[0x20, 0x0a], by decide, _, rfl, rfl⟩
  · cases h; exact ⟨[0x0d, 0x0a], by decide, _, rfl, rfl⟩
  · cases h; exact ⟨[0x20, 0x0d, 0x0a], by decide, _, rfl, rfl⟩
  · cases h

theorem eolLen_of {eol : Bytes} (h : eol ∈ eols) (z : Bytes) : eolLen (eol ++ z) = some eol.length := by
  simp only [eols, List.mem_cons, List.not_mem_nil, or_false] at h
  rcases h with rfl | rfl | rfl | rfl <;> rfl

theorem rd_append (u w : Bytes) (i : Nat) : rd (u ++ w) (u.length + i) = rd w i := by
  unfold rd
  rw [List.getElem?_append_right (by omega), Nat.add_sub_cancel_left]

theorem skip_at (u w : Bytes) (i : Nat) (x c : UInt8) (h : w[i]? = some x) : skipIf (u ++ w) (u.length + i) c = .ok (u.length + if x = c then i + 1 else i) := by
  unfold skipIf
  rw [rd_append]
  unfold rd
  rw [h]
  simp only [Res.bind_ok]
  by_cases hx : x = c
  · rw [if_pos hx, if_pos hx]; rfl
  · rw [if_neg hx, if_neg hx]; rfl

theorem read_at (u w : Bytes) (i : Nat) (x : UInt8) (h : w[i]? = some x) : rd (u ++ w) (u.length + i) = .ok x := by
  rw [rd_append]
  unfold rd
  rw [h]

/-- The three steps together, on data in which a zero follows. -/
theorem eol_steps (u w : Bytes) (h0 : (0 : UInt8) ∈ w) (K : Nat → Res PemR) :
    (do
      let s1 ← skipIf (u ++ w) u.length 0x20
      let s1 ← skipIf (u ++ w) s1 0x0d
      let c ← rd (u ++ w) s1
      if c ≠ 0x0a then (.ok .noHeader : Res PemR) else K (s1 + 1)) =
    match eolLen w with
    | none => .ok .noHeader
    | some n => K (u.length + n) := by
  have fin : ∀ (i : Nat) (x : UInt8), w[i]? = some x → (do
      let c ← rd (u ++ w) (u.length + i)
      if c ≠ 0x0a then (.ok .noHeader : Res PemR) else K (u.length + i + 1)) = if x = 0x0a then K (u.length + (i + 1)) else .ok .noHeader := by
    intro i x hx
    rw [read_at u w i x hx, Res.bind_ok]
    by_cases h : x = 0x0a
    · rw [if_neg (by simpa using h), if_pos h]; rfl
    · rw [if_pos h, if_neg h]
  match w, h0 with
  | a :: w, h0 =>
    have s1 := skip_at u (a :: w) 0 a 0x20 rfl
    rw [Nat.add_zero] at s1
    rw [s1, Res.bind_ok]
    by_cases ha : a = 0x20
    · subst ha
      rw [if_pos rfl]
      match w, h0 with
      | [], h0 => exact absurd h0 (by decide)
      | b :: w, h0 =>
        rw [skip_at u (0x20 :: b :: w) 1 b 0x0d rfl, Res.bind_ok]
        by_cases hb : b = 0x0d
        · subst hb
          rw [if_pos rfl]
          match w, h0 with
          | [], h0 => exact absurd h0 (by decide)
          | c :: w, h0 =>
            rw [fin 2 c rfl]
            by_cases hc : c = 0x0a
            · subst hc; rfl
            · rw [if_neg hc]
              have : eolLen (0x20 :: 0x0d :: c :: w) = none := by
                unfold eolLen
                split <;> simp_all
              rw [this]
        · rw [if_neg hb, fin 1 b rfl]
          by_cases hc : b = 0x0a
          · subst hc; rfl
          · rw [if_neg hc]
            have : eolLen (0x20 :: b :: w) = none := by
              unfold eolLen
              split <;> simp_all
            rw [this]
    · rw [if_neg ha, skip_at u (a :: w) 0 a 0x0d rfl, Res.bind_ok]
      by_cases hb : a = 0x0d
      · subst hb
        rw [if_pos rfl]
        match w, h0 with
        | [], h0 => exact absurd h0 (by decide)
        | c :: w, h0 =>
          rw [fin 1 c rfl]
          by_cases hc : c = 0x0a
          · subst hc; rfl
          · rw [if_neg hc]
            have : eolLen (0x0d :: c :: w) = none := by
              unfold eolLen
              split <;> simp_all
            rw [this]
      · rw [if_neg hb, fin 0 a rfl]
        by_cases hc : a = 0x0a
        · subst hc; rfl
        · rw [if_neg hc]
          have : eolLen (a :: w) = none := by
            unfold eolLen
            split <;> simp_all
          rw [this]

/-! ## Decoding -/

theorem pemDecode_iff {body buf : Bytes} {u used : Nat} (h : body.length < 2 ^ 63) :
    pemDecode body u = .ok (.ok buf used) ↔ used = u ∧ ∃ cap n, decode (some cap) body = .ok (.ok buf n) := by
  rcases hs : scan 0 body 0 0 with _ | ⟨n, j⟩
  · have : ∀ d, decode d body = .ok .invalidChar := fun d => by unfold decode; rw [hs]
    unfold pemDecode
    simp only [this, Res.bind_ok]
    constructor
    · intro h; cases h
    · rintro ⟨-, _, _, h⟩; cases h
  · obtain ⟨a, -, -, -, -, -, hd⟩ := decode_spec h hs
    unfold pemDecode
    simp only [hd, Res.bind_ok]
    by_cases hn : n = 0
    · simp only [if_pos hn]
      constructor
      · intro h
        cases h
        exact ⟨rfl, 0, 0, rfl⟩
      · rintro ⟨rfl, _, _, h⟩
        cases h
        rfl
    · simp only [if_neg hn, lt_irrefl, if_false]
      constructor
      · intro h
        cases h
        exact ⟨rfl, (6 * n + 7) / 8 - j, (decoded a j).length, by rw [if_neg (lt_irrefl _)]⟩
      · rintro ⟨rfl, cap, m, h⟩
        by_cases hc : cap < (6 * n + 7) / 8 - j
        · rw [if_pos hc] at h; cases h
        · rw [if_neg hc] at h
          cases h
          rfl

/-! ## Reading -/

theorem cstr_split : ∀ {data : Bytes}, (0 : UInt8) ∈ data → ∃ rest, data = cstr data ++ 0 :: rest
  | [], h => by simp at h
  | c :: r, h => by
    by_cases hc : c = 0
    · subst hc
      exact ⟨r, by simp [cstr]⟩
    · have hr : (0 : UInt8) ∈ r := (List.mem_cons.1 h).resolve_left fun h => hc h.symm
      obtain ⟨rest, e⟩ := cstr_split hr
      refine ⟨rest, ?_⟩
      rw [cstr, if_neg hc, List.cons_append, ← e]

/-- The result in terms of the two places. -/
theorem read_at_marks (header footer data : Bytes) (h0 : (0 : UInt8) ∈ data) {pre w B post rest : Bytes} (hd : data = cstr data ++ 0 :: rest)
    (h1 : cstr data = pre ++ (header ++ w)) (h2 : cstr data = B ++ (footer ++ post)) (f1 : First header (cstr data) pre.length)
    (f2 : First footer (cstr data) B.length) : ∃ e, pemRead header footer data =
      if B.length ≤ pre.length then .ok .noHeader else match eolLen (w ++ 0 :: rest) with
      | none => .ok .noHeader
      | some n => if (pre ++ header).length + n + 22 ≤ B.length ∧ slice data ((pre ++ header).length + n) ((pre ++ header).length + n + 22) = procType then .ok .encrypted
        else if B.length ≤ (pre ++ header).length + n then .ok .invalidData else pemDecode (slice data ((pre ++ header).length + n) B.length) e := by
  have g1 : findFirst header (cstr data) = some pre.length :=
    findFirst_eq (by rw [h1, List.drop_left' rfl]; exact List.prefix_append _ _) (by rw [h1]; simp) f1
  have g2 : findFirst footer (cstr data) = some B.length :=
    findFirst_eq (by rw [h2, List.drop_left' rfl]; exact List.prefix_append _ _) (by rw [h2]; simp) f2
  have hlB : B.length + footer.length ≤ (cstr data).length := by rw [h2]; simp
  obtain ⟨e1, k1, -, l1, -⟩ := skipIf_ok h0 hlB (c := 0x20) (by decide)
  obtain ⟨e2, k2, -, l2, -⟩ := skipIf_ok h0 l1 (c := 0x0d) (by decide)
  obtain ⟨e3, k3, -⟩ := skipIf_ok h0 l2 (c := 0x0a) (by decide)
  refine ⟨e3, ?_⟩
  unfold pemRead strstr
  rw [if_pos h0, if_pos h0, g1, g2, Res.bind_ok]
  simp only [Res.bind_ok]
  by_cases hle : B.length ≤ pre.length
  · rw [if_pos hle, if_pos hle]
  · rw [if_neg hle, if_neg hle]
    unfold pemBody
    have hdw : data = (pre ++ header) ++ (w ++ 0 :: rest) := by
      rw [hd, h1]
      simp
    have := eol_steps (pre ++ header) (w ++ 0 :: rest) (by simp) fun s1 =>
      if s1 + 22 ≤ B.length ∧ slice data s1 (s1 + 22) = procType then .ok .encrypted
      else if B.length ≤ s1 then .ok .invalidData else pemDecode (slice data s1 B.length) e3
    rw [← hdw, List.length_append] at this
    rw [List.length_append, ← this]
    simp only [k1, k2, k3, Res.bind_ok]

theorem procType_len : procType.length = 22 := by decide +kernel

theorem no_zero {eol : Bytes} (h : eol ∈ eols) : (0 : UInt8) ∉ eol := by
  revert eol
  decide

/-- **C121**: the PEM reader returns bytes exactly if the text before the first zero is armour around a body that decodes to them. -/
theorem c121_pem (header footer data : Bytes) (h0 : (0 : UInt8) ∈ data) (hlen : data.length < 2 ^ 63) (buf : Bytes) :
    (∃ used, pemRead header footer data = .ok (.ok buf used)) ↔
    ∃ pre eol body post, Armour header footer (cstr data) pre eol body post ∧ ∃ cap n, decode (some cap) body = .ok (.ok buf n) := by
  obtain ⟨rest, hd⟩ := cstr_split h0
  constructor
  · rintro ⟨used, h⟩
    -- the two places exist
    rcases g1 : findFirst header (cstr data) with _ | s1
    · unfold pemRead strstr at h
      rw [if_pos h0, g1, Res.bind_ok] at h
      cases h
    rcases g2 : findFirst footer (cstr data) with _ | s2
    · unfold pemRead strstr at h
      rw [if_pos h0, if_pos h0, g1, g2, Res.bind_ok] at h
      cases h
    obtain ⟨⟨w, p1⟩, l1, f1⟩ := findFirst_some g1
    obtain ⟨⟨post, p2⟩, l2, f2⟩ := findFirst_some g2
    have h1 : cstr data = (cstr data).take s1 ++ (header ++ w) := by rw [p1, List.take_append_drop]
    have h2 : cstr data = (cstr data).take s2 ++ (footer ++ post) := by rw [p2, List.take_append_drop]
    have e1 : ((cstr data).take s1).length = s1 := by rw [List.length_take]; omega
    have e2 : ((cstr data).take s2).length = s2 := by rw [List.length_take]; omega
    generalize (cstr data).take s1 = pre at h1 e1
    generalize (cstr data).take s2 = B at h2 e2
    subst e1 e2
    obtain ⟨e, hr⟩ := read_at_marks header footer data h0 hd h1 h2 f1 f2
    rw [hr] at h
    split at h
    · cases h
    rcases he : eolLen (w ++ 0 :: rest) with _ | n
    · rw [he] at h; cases h
    rw [he] at h
    simp only at h
    obtain ⟨eol, hm, z, hz, rfl⟩ := eolLen_some he
    split at h
    · cases h
    rename_i hproc
    split at h
    · cases h
    rename_i hpos
    -- the end of the line lies within the text
    obtain ⟨z1, hw⟩ : ∃ z1, w = eol ++ z1 := by
      rcases List.append_eq_append_iff.1 hz with ⟨a, ha, hb⟩ | ⟨a, ha, hb⟩
      · cases a with
        | nil => exact ⟨[], by simpa using ha.symm⟩
        | cons x a =>
          rw [List.cons_append, List.cons.injEq] at hb
          exact absurd (by rw [ha, ← hb.1]; simp) (no_zero hm)
      · exact ⟨a, ha⟩
    subst hw
    have hA : (pre ++ (header ++ eol)) ++ z1 = B ++ (footer ++ post) := by rw [← h2, h1]; simp
    obtain ⟨body, hB, hz1⟩ : ∃ body, B = (pre ++ (header ++ eol)) ++ body ∧ z1 = body ++ (footer ++ post) := by
      rcases List.append_eq_append_iff.1 hA with ⟨a, ha, hb⟩ | ⟨a, ha, hb⟩
      · exact ⟨a, ha, hb⟩
      · exfalso
        have := congrArg List.length ha
        simp only [List.length_append] at this hpos
        omega
    subst hB hz1
    have hsl : ∀ m, slice data ((pre ++ header).length + eol.length) ((pre ++ header).length + eol.length + m) = (body ++ (footer ++ post) ++ 0 :: rest).take m := by
      intro m
      have : data = (pre ++ (header ++ eol)) ++ (body ++ (footer ++ post) ++ 0 :: rest) := by rw [hd, h1]; simp
      unfold slice
      rw [this, show (pre ++ header).length + eol.length = (pre ++ (header ++ eol)).length by simp only [List.length_append]; omega, List.take_length_add_append, List.drop_left' rfl]
    have hbl : (pre ++ (header ++ eol) ++ body).length = (pre ++ header).length + eol.length + body.length := by
      simp only [List.length_append]; omega
    rw [hbl, hsl, List.append_assoc, List.take_left' rfl] at h
    rw [hbl, hsl] at hproc
    rw [hbl] at hpos
    have hblen : body.length < 2 ^ 63 := by
      have := congrArg List.length hd
      rw [h1] at this
      simp only [List.length_append] at this
      omega
    refine ⟨pre, eol, body, post, ⟨h1, hm, ?_, ?_, f1, ?_⟩, ((pemDecode_iff hblen).1 h).2⟩
    · rintro rfl
      simp at hpos
    · rintro ⟨b, rfl⟩
      refine hproc ⟨?_, ?_⟩
      · have := procType_len
        simp only [List.length_append]
        omega
      rw [List.append_assoc, List.append_assoc, List.take_left' procType_len]
    · rw [hbl, List.length_append] at f2
      exact f2
  · rintro ⟨pre, eol, body, post, ⟨h1, hm, hne, hcl, f1, f2⟩, hdec⟩
    have h2 : cstr data = (pre ++ (header ++ eol) ++ body) ++ (footer ++ post) := by rw [h1]; simp
    have hbl : (pre ++ (header ++ eol) ++ body).length = (pre ++ header).length + eol.length + body.length := by
      simp only [List.length_append]; omega
    have hbl' : pre.length + header.length + eol.length + body.length = (pre ++ (header ++ eol) ++ body).length := by
      simp only [List.length_append]; omega
    rw [hbl'] at f2
    obtain ⟨e, hr⟩ := read_at_marks header footer data h0 hd h1 h2 f1 f2
    have hb : 0 < body.length := List.length_pos_iff.2 hne
    have hsl : ∀ m, slice data ((pre ++ header).length + eol.length) ((pre ++ header).length + eol.length + m) = (body ++ (footer ++ post) ++ 0 :: rest).take m := by
      intro m
      have : data = (pre ++ (header ++ eol)) ++ (body ++ (footer ++ post) ++ 0 :: rest) := by rw [hd, h1]; simp
      unfold slice
      rw [this, show (pre ++ header).length + eol.length = (pre ++ (header ++ eol)).length by simp only [List.length_append]; omega, List.take_length_add_append, List.drop_left' rfl]
    have hblen : body.length < 2 ^ 63 := by
      have := congrArg List.length hd
      rw [h1] at this
      simp only [List.length_append] at this
      omega
    rw [if_neg (by rw [hbl, List.length_append]; omega), List.append_assoc, eolLen_of hm] at hr
    simp only at hr
    rw [hbl, hsl, hsl, if_neg, if_neg (by omega)] at hr
    · rw [List.append_assoc, List.take_left' rfl] at hr
      exact ⟨e, by rw [hr]; exact (pemDecode_iff hblen).2 ⟨rfl, hdec⟩⟩
    · rintro ⟨hl, hp⟩
      refine hcl ⟨body.drop 22, ?_⟩
      rw [List.append_assoc, List.take_append_of_le_length (by omega)] at hp
      rw [← hp, List.take_append_drop]

/-! ## Importing keys -/

/-- The text is armour around the bytes `buf`. -/
def Pem (hdr ftr t buf : Bytes) : Prop := ∃ pre eol body post, Armour hdr ftr t pre eol body post ∧ ∃ cap n, decode (some cap) body = .ok (.ok buf n)

theorem cstr_snoc (t : Bytes) : cstr (t ++ [0]) = cstr t := by
  induction t with
  | nil => rfl
  | cons c t ih =>
    rw [List.cons_append, cstr, cstr, ih]

theorem readPem_iff {hdr ftr t buf : Bytes} (hlen : t.length < 2 ^ 62) : (∃ used, readPem hdr ftr (t ++ [0]) = .ok (.ok buf used)) ↔ Pem hdr ftr (cstr t) buf := by
  unfold readPem
  rw [if_pos (by simp), c121_pem _ _ _ (by simp) (by simp; omega), cstr_snoc]
  rfl

theorem readPem_none {hdr ftr t : Bytes} (h : ∀ j, ¬hdr <+: (cstr t).drop j) : readPem hdr ftr (t ++ [0]) = .ok .noHeader := by
  unfold readPem pemRead strstr
  rw [if_pos (by simp), if_pos (by simp), cstr_snoc]
  rcases g : findFirst hdr (cstr t) with _ | i
  · rfl
  · exact absurd (findFirst_some g).1 (h i)

/-- The text stands for the private key `k`. -/
inductive PrivateText (t : Bytes) (k : Rsa) : Prop
  | pkcs1 (buf : Bytes) (h : Pem privHeader privFooter (cstr t) buf) (hk : parsePkcs1 buf = .ok k)
  | pkcs8 (buf : Bytes) (h : Pem pkcs8Header pkcs8Footer (cstr t) buf) (hk : parsePkcs8 buf = .ok k)
  | der (hk : parseDer (t ++ [0]) = .ok k)

/-- **C121**: a private key that is imported comes from one of the three formats; the bytes inside the armour are those of C120. -/
theorem c121_private (t : Bytes) (hlen : t.length < 2 ^ 62) (k : Rsa) (h : importPrivate t = .ok k) :
    ∃ k', PrivateText t k' ∧ k = rsaCopy k' ∧ checkPub k = true := by
  unfold importPrivate at h
  rw [Res.bind_eq_ok] at h
  obtain ⟨k', h1, h⟩ := h
  split at h
  · rename_i hc
    cases h
    refine ⟨k', ?_, rfl, hc⟩
    unfold parseKey at h1
    rw [Res.bind_eq_ok] at h1
    obtain ⟨r, hr, h1⟩ := h1
    cases r with
    | ok buf used => exact .pkcs1 buf ((readPem_iff hlen).1 ⟨used, hr⟩) h1
    | noHeader =>
      simp only at h1
      rw [Res.bind_eq_ok] at h1
      obtain ⟨r, hr, h1⟩ := h1
      cases r with
      | ok buf used => exact .pkcs8 buf ((readPem_iff hlen).1 ⟨used, hr⟩) h1
      | noHeader => exact .der h1
      | encrypted => cases h1
      | invalidData => cases h1
    | encrypted => cases h1
    | invalidData => cases h1
  · cases h

/-- **C121**: every text of the first format is imported, and every text of the others that does not contain the headers of the former. -/
theorem c121_private_complete (t : Bytes) (hlen : t.length < 2 ^ 62) (k : Rsa) (hc : checkPub (rsaCopy k) = true) :
    (∀ buf, Pem privHeader privFooter (cstr t) buf → parsePkcs1 buf = .ok k → importPrivate t = .ok (rsaCopy k)) ∧
    ((∀ j, ¬privHeader <+: (cstr t).drop j) →
      (∀ buf, Pem pkcs8Header pkcs8Footer (cstr t) buf → parsePkcs8 buf = .ok k → importPrivate t = .ok (rsaCopy k)) ∧
      ((∀ j, ¬pkcs8Header <+: (cstr t).drop j) → parseDer (t ++ [0]) = .ok k → importPrivate t = .ok (rsaCopy k))) := by
  have fin : parseKey (t ++ [0]) = .ok k → importPrivate t = .ok (rsaCopy k) := by
    intro h
    unfold importPrivate
    rw [h, Res.bind_ok, if_pos hc]
  refine ⟨fun buf h hk => fin ?_, fun h1 => ⟨fun buf h hk => fin ?_, fun h2 hk => fin ?_⟩⟩
  · obtain ⟨used, hr⟩ := (readPem_iff hlen).2 h
    unfold parseKey
    rw [hr, Res.bind_ok]
    exact hk
  · obtain ⟨used, hr⟩ := (readPem_iff hlen).2 h
    unfold parseKey
    rw [readPem_none h1, Res.bind_ok]
    simp only
    rw [hr, Res.bind_ok]
    exact hk
  · unfold parseKey
    rw [readPem_none h1, Res.bind_ok]
    simp only
    rw [readPem_none h2, Res.bind_ok]
    exact hk

/-- **C121**: public keys. -/
theorem c121_public (t : Bytes) (hlen : t.length < 2 ^ 62) (k : Rsa) :
    (importPublic t = .ok k → ∃ k', ((∃ buf, Pem pubHeader pubFooter (cstr t) buf ∧ parseSubpubkey buf = .ok k') ∨ parseSubpubkey (t ++ [0]) = .ok k') ∧
      k = rsaCopy k' ∧ checkPub k = true) ∧
    (checkPub (rsaCopy k) = true → ∀ buf, Pem pubHeader pubFooter (cstr t) buf → parseSubpubkey buf = .ok k → importPublic t = .ok (rsaCopy k)) ∧
    (checkPub (rsaCopy k) = true → (∀ j, ¬pubHeader <+: (cstr t).drop j) → parseSubpubkey (t ++ [0]) = .ok k → importPublic t = .ok (rsaCopy k)) := by
  refine ⟨fun h => ?_, fun hc buf h hk => ?_, fun hc h hk => ?_⟩
  · unfold importPublic at h
    rw [Res.bind_eq_ok] at h
    obtain ⟨k', h1, h⟩ := h
    split at h
    · rename_i hc
      cases h
      refine ⟨k', ?_, rfl, hc⟩
      unfold parsePublicKey at h1
      rw [Res.bind_eq_ok] at h1
      obtain ⟨r, hr, h1⟩ := h1
      cases r with
      | ok buf used => exact Or.inl ⟨buf, (readPem_iff hlen).1 ⟨used, hr⟩, h1⟩
      | noHeader => exact Or.inr h1
      | encrypted => cases h1
      | invalidData => cases h1
    · cases h
  · obtain ⟨used, hr⟩ := (readPem_iff hlen).2 h
    unfold importPublic parsePublicKey
    rw [hr, Res.bind_ok]
    simp only
    rw [hk, Res.bind_ok, if_pos hc]
  · unfold importPublic parsePublicKey
    rw [readPem_none h, Res.bind_ok]
    simp only
    rw [hk, Res.bind_ok, if_pos hc]

/-! ## Cases -/

/-- A text before the header, a header line with a space and a carriage return, one group, and a text behind the footer. -/
example : pemRead [0x2d, 0x41] [0x2d, 0x42] ([0x78, 0x0a] ++ [0x2d, 0x41] ++ [0x20, 0x0d, 0x0a] ++ [0x51, 0x55, 0x4a, 0x44] ++ [0x2d, 0x42] ++ [0x79, 0]) =
    .ok (.ok [0x41, 0x42, 0x43] 13) := by decide +kernel

example : Pem [0x2d, 0x41] [0x2d, 0x42] ([0x78, 0x0a] ++ [0x2d, 0x41] ++ [0x20, 0x0d, 0x0a] ++ [0x51, 0x55, 0x4a, 0x44] ++ [0x2d, 0x42] ++ [0x79]) [0x41, 0x42, 0x43] := by
  have h := (c121_pem [0x2d, 0x41] [0x2d, 0x42] ([0x78, 0x0a] ++ [0x2d, 0x41] ++ [0x20, 0x0d, 0x0a] ++ [0x51, 0x55, 0x4a, 0x44] ++ [0x2d, 0x42] ++ [0x79, 0])
    (by decide) (by decide) [0x41, 0x42, 0x43]).1 ⟨13, by decide +kernel⟩
  rwa [show cstr ([0x78, 0x0a] ++ [0x2d, 0x41] ++ [0x20, 0x0d, 0x0a] ++ [0x51, 0x55, 0x4a, 0x44] ++ [0x2d, 0x42] ++ [0x79, 0]) =
    [0x78, 0x0a] ++ [0x2d, 0x41] ++ [0x20, 0x0d, 0x0a] ++ [0x51, 0x55, 0x4a, 0x44] ++ [0x2d, 0x42] ++ [0x79] by decide] at h

/-- The footer before the header: not accepted although a footer follows. -/
example : pemRead [0x2d, 0x41] [0x2d, 0x42] ([0x2d, 0x42] ++ [0x2d, 0x41] ++ [0x0a] ++ [0x51, 0x55, 0x4a, 0x44] ++ [0x2d, 0x42] ++ [0]) = .ok .noHeader := by decide +kernel

/-- The example key, exported and imported: the text has one of the formats. -/
example : ∃ k', PrivateText (privText exKey.N exKey.E exPriv) k' ∧ exKey = rsaCopy k' := by
  have h := (c42_import_private (k := exKey) (s := exPriv) rfl exKey_check (by decide +kernel)
    (by decide +kernel)).1
  obtain ⟨k', g1, g2, -⟩ := c121_private _ (by decide +kernel) _ h
  exact ⟨k', g1, g2⟩

/-- The same key: its text is armour around its encoding, and this is enough for the key to be imported. -/
example : Pem privHeader privFooter (cstr (privText exKey.N exKey.E exPriv)) (Spec.rsaPrivateKey exKey.N exKey.E exPriv) ∧
    importPrivate (privText exKey.N exKey.E exPriv) = .ok exKey := by
  obtain ⟨u, hu⟩ := readPem_pem privMarks (der := Spec.rsaPrivateKey exKey.N exKey.E exPriv) (rsaPrivateKey_ne _ _ _) (by decide +kernel) (by decide +kernel) [0x0a] (by decide)
  have e : privText exKey.N exKey.E exPriv ++ [0] =
      privHeader ++ 0x0a :: (Spec.wrap (Spec.base64 (Spec.rsaPrivateKey exKey.N exKey.E exPriv)) ++ (privFooter ++ ([0x0a] ++ [0]))) := by
    simp [privText, Spec.pem]
  rw [← e] at hu
  have h := (readPem_iff (by decide +kernel)).1 ⟨u, hu⟩
  have hl : mpiSize exKey.N = 256 := by decide +kernel
  have hm : mkPriv exKey.N exKey.E exPriv = exKey := by
    rw [mkPriv, hl]
    rfl
  have hk : parsePkcs1 (Spec.rsaPrivateKey exKey.N exKey.E exPriv) = .ok exKey := by
    obtain ⟨h1, h2, h3, h4, h5, h6, h7, h8⟩ := checkPriv_nums (k := exKey) (s := exPriv) rfl exKey_check (by decide +kernel)
    rw [parsePkcs1_spec h1 h2 h3 h4 h5 h6 h7 h8, hm, if_pos exKey_check]
  exact ⟨h, (c121_private_complete _ (by decide +kernel) exKey (checkPriv_facts rfl exKey_check).1).1 _ h hk⟩

end Verif.Io.PemExact
