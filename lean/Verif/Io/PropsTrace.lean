import Verif.Io.ModelTrace
import Verif.Io.PkSafe

/-!
# C107: what base64 shows of a key

The encoder and the decoder use the data as indices into tables and decide branches with them.  The events of an encoding and of an accepted decoding determine
the data.
-/

namespace Verif.Io.Traced

open Verif Verif.Trace T Verif.Tdp

@[simp] theorem rdT_res {α : Type} (r : Rg) (a : List α) (i : Nat) : (rdT r a i).res = rd a i := rfl
@[simp] theorem putT_res (cap : Nat) (out : Bytes) (b : UInt8) : (putT cap out b).res = put cap out b := rfl
@[simp] theorem putEncT_res (cap : Nat) (out : Bytes) (v : Nat) : (putEncT cap out v).res = putEnc cap out v := by
  rw [putEncT, bind_res]; rfl
@[simp] theorem tick_res (c : Bool) : (tick c).res = .ok () := rfl
@[simp] theorem ldT_res (i : Nat) (c : UInt8) : (ldT i c).res = .ok c := rfl
@[simp] theorem retT_res (r : B64) : (retT r).res = .ok r := rfl
theorem ifT_res {α : Type} (c : Prop) [Decidable c] (a b : M α) : (ifT c a b).res = if c then a.res else b.res := rfl

theorem encGroupsT_res (cap : Nat) (src : Bytes) (k i : Nat) (out : Bytes) : (encGroupsT cap src k i out).res = encGroups cap src k i out := by
  induction k generalizing i out with
  | zero => simp only [encGroupsT, encGroups, bind_res, tick_res, Res.bind_ok, pure_res]
  | succ k ih => simp only [encGroupsT, encGroups, bind_res, tick_res, Res.bind_ok, rdT_res, putEncT_res, ih]

theorem encTailT_res (cap : Nat) (src : Bytes) (i : Nat) (out : Bytes) : (encTailT cap src i out).res = encTail cap src i out := by
  unfold encTailT encTail tailByte tailThird
  simp only [ifT_res, bind_res, rdT_res, putEncT_res, putT_res, pure_res]

theorem encode_refines (dst : Option Nat) (src : Bytes) : (encodeT dst src).res = encode dst src := by
  unfold encodeT encode encFillT
  cases dst with
  | none => simp [ifT_res]
  | some d => simp [ifT_res, bind_res, encGroupsT_res, encTailT_res]

/-- What the first pass does with a character, without the events. -/
def step (x : Nat) (c : UInt8) (rest : Bytes) (j : Nat) : Step :=
  if c = 0x20 then .space
  else if c = 0x0d ∧ rest.head? = some 0x0a then .eol
  else if c = 0x0a then .eol
  else if x ≠ 0 then .bad
  else
    let j := if c = 0x3d then j + 1 else j
    if c = 0x3d ∧ j > 2 then .bad
    else if c.toNat > 127 ∨ decMap.getD c.toNat 0 = 127 then .bad
    else if decMap.getD c.toNat 0 < 64 ∧ j ≠ 0 then .bad
    else .char j

theorem rd_decMap {c : UInt8} (h : ¬ c.toNat > 127) : rd decMap c.toNat = .ok (decMap.getD c.toNat 0) := by
  rw [rd, decMap_get c.toNat (by omega)]

@[simp] theorem bindK {α β : Type} (e : List (Ev Rg)) (a : α) (f : α → M β) : ((⟨e, .ok a⟩ : M α) >>= f) = ⟨e ++ (f a).evs, (f a).res⟩ := rfl
theorem pureK {α : Type} (a : α) : (pure a : M α) = ⟨[], .ok a⟩ := rfl
theorem tickK (c : Bool) : tick c = ⟨[.br c], .ok ()⟩ := rfl
theorem ldK (i : Nat) (c : UInt8) : ldT i c = ⟨[.rd .src i 1], .ok c⟩ := rfl
theorem ifK {α : Type} (c : Prop) [Decidable c] (a b : M α) :
    ifT c a b = ⟨.br (decide c) :: (if c then a else b).evs, (if c then a else b).res⟩ := by
  unfold ifT; by_cases h : c <;> simp [h]

/-- The events of the test for the end of a line, base64.c 169-171. -/
def eolEv (i : Nat) (c : UInt8) (rest : Bytes) : List (Ev Rg) :=
  .br (decide (rest ≠ [])) :: if rest = [] then [] else .rd .src i 1 :: .br (decide (c = 0x0d)) ::
    if c = 0x0d then [.rd .src (i + 1) 1, .br (decide (rest.head? = some 0x0a))] else []

/-- The events of the look-ups of a character, base64.c 183-190. -/
def lookEv (i : Nat) (c : UInt8) (j : Nat) : List (Ev Rg) :=
  .rd .src i 1 :: .br (decide (c.toNat > 127)) :: if c.toNat > 127 then [] else
    .rd .src i 1 :: .rd .decMap c.toNat 1 :: .br (decide (decMap.getD c.toNat 0 = 127)) :: if decMap.getD c.toNat 0 = 127 then [] else
      .rd .src i 1 :: .rd .decMap c.toNat 1 :: .br (decide (decMap.getD c.toNat 0 < 64)) :: if decMap.getD c.toNat 0 < 64 then [.br (decide (j ≠ 0))] else []

/-- The events after that, base64.c 173-192. -/
def charEv (x i : Nat) (c : UInt8) (j : Nat) : List (Ev Rg) :=
  .rd .src i 1 :: .br (decide (c = 0x0a)) :: if c = 0x0a then [] else .br (decide (x ≠ 0)) :: if x ≠ 0 then [] else
    .rd .src i 1 :: .br (decide (c = 0x3d)) ::
      if c = 0x3d then .br (decide (j + 1 > 2)) :: (if j + 1 > 2 then [] else lookEv i c (j + 1)) else lookEv i c j

/-- The events of one character. -/
def stepEv (x i : Nat) (c : UInt8) (rest : Bytes) (j : Nat) : List (Ev Rg) :=
  .br true :: .rd .src i 1 :: .br (decide (c = 0x20)) :: if c = 0x20 then [] else
    .br false :: (eolEv i c rest ++ if c = 0x0d ∧ rest.head? = some 0x0a then [] else charEv x i c j)

/-- What the look-ups say. -/
def look (c : UInt8) (j : Nat) : Step :=
  if c.toNat > 127 ∨ decMap.getD c.toNat 0 = 127 then .bad
  else if decMap.getD c.toNat 0 < 64 ∧ j ≠ 0 then .bad
  else .char j

theorem eolT_eq (i : Nat) (c : UInt8) (rest : Bytes) : eolT i c rest = ⟨eolEv i c rest, .ok (decide (c = 0x0d ∧ rest.head? = some 0x0a))⟩ := by
  unfold eolT eolEv
  cases rest with
  | nil => simp [ifK, pureK]
  | cons d r =>
    by_cases h1 : c = 0x0d
    · by_cases h2 : d = 0x0a <;> simp [ifK, pureK, ldK, h1, h2, rd]
    · simp [ifK, pureK, ldK, h1]

theorem lookT_eq (i : Nat) (c : UInt8) (j : Nat) : lookT i c j = ⟨lookEv i c j, .ok (look c j)⟩ := by
  unfold lookT lookEv look
  by_cases h1 : c.toNat > 127
  · simp [ifK, pureK, ldK, h1]
  have h2 : rdT .decMap decMap c.toNat = ⟨[.rd .decMap c.toNat 1], .ok (decMap.getD c.toNat 0)⟩ := by rw [rdT, rd_decMap h1]
  generalize decMap.getD c.toNat 0 = d at *
  by_cases h3 : d = 127
  · simp [ifK, pureK, ldK, h1, h2, h3]
  · by_cases h4 : d < 64 <;> by_cases h5 : j = 0 <;> simp [ifK, pureK, ldK, h1, h2, h3, h4, h5]

theorem stepT_eq (x i : Nat) (c : UInt8) (rest : Bytes) (j : Nat) : stepT x i c rest j = ⟨stepEv x i c rest j, .ok (step x c rest j)⟩ := by
  unfold stepT step stepEv
  by_cases h1 : c = 0x20
  · simp [ifK, pureK, ldK, tickK, h1]
  by_cases h2 : c = 0x0d ∧ rest.head? = some 0x0a
  · simp [ifK, pureK, ldK, tickK, h1, h2, eolT_eq]
  have hc : charT x i c j = ⟨charEv x i c j, .ok (if c = 0x0a then .eol else if x ≠ 0 then .bad else
      if c = 0x3d ∧ (if c = 0x3d then j + 1 else j) > 2 then .bad else look c (if c = 0x3d then j + 1 else j))⟩ := by
    unfold charT charEv
    by_cases h3 : c = 0x0a
    · simp [ifK, pureK, ldK, h3]
    by_cases h4 : x = 0
    · by_cases h5 : c = 0x3d
      · by_cases h6 : j + 1 > 2 <;> simp [ifK, pureK, ldK, h4, h5, h6, lookT_eq]
      · simp [ifK, ldK, h3, h4, h5, lookT_eq]
    · simp [ifK, pureK, ldK, h3, h4]
  simp only [ifK, pureK, ldK, tickK, h1, h2, eolT_eq, hc, bindK, if_false, decide_false]
  rfl

theorem scan_refines (top : Bool) (x i : Nat) (src : Bytes) (n j : Nat) :
    (scanT top x i src n j).res = .ok (scan x src n j) := by
  induction src generalizing top x i n j with
  | nil => cases top <;> simp [scanT, scan, bind_res]
  | cons c rest ih =>
    have e : (scanT top x i (c :: rest) n j).res = (match step x c rest j with
      | .space => .ok (scan ((x + 1) % 4294967296) rest n j)
      | .eol => .ok (scan 0 rest n j)
      | .bad => .ok none
      | .char j => .ok (scan 0 rest (n + 1) j)) := by
      cases top <;> simp only [scanT, stepT_eq, bind_res, tick_res, Res.bind_ok, if_true, if_false, Bool.false_eq_true, pure_res] <;>
        cases step x c rest j <;> simp only [ih, pure_res]
    rw [e, scan, step]
    have h1 : ∀ c : UInt8, (decMap[c.toNat]? = some 127 ∨ c.toNat > 127) ↔ (c.toNat > 127 ∨ decMap.getD c.toNat 0 = 127) := by
      intro c
      by_cases h : c.toNat > 127
      · simp [h]
      · rw [decMap_get _ (by omega)]; simp [h]
    have h2 : ¬ c.toNat > 127 → ((∃ d, decMap[c.toNat]? = some d ∧ d < 64) ↔ decMap.getD c.toNat 0 < 64) := by
      intro h
      rw [decMap_get _ (by omega)]; simp
    have h3 := (or_comm.trans (h1 c))
    simp only [h3]
    by_cases a1 : c = 0x20
    · simp [a1]
    by_cases a2 : c = 0x0d ∧ rest.head? = some 0x0a
    · simp [a1, a2]
    by_cases a3 : c = 0x0a
    · simp [a3]
    by_cases a4 : x ≠ 0
    · simp only [a1, a2, a3, a4, if_false, if_true, ne_eq, not_false_eq_true]
    simp only [a1, a2, a3, a4, if_false]
    generalize hj : (if c = 0x3d then j + 1 else j) = j'
    by_cases a5 : c = 0x3d ∧ j' > 2
    · simp only [a5, and_self, if_true]
    simp only [a5, if_false]
    by_cases a6 : c.toNat > 127 ∨ decMap.getD c.toNat 0 = 127
    · simp only [a6, if_true]
    simp only [a6, if_false]
    rw [not_or] at a6
    simp only [h2 a6.1]
    by_cases a7 : decMap.getD c.toNat 0 < 64 ∧ j' ≠ 0
    · simp only [if_pos a7]
    · simp only [if_neg a7]

theorem emitGroup_refines (cap j x : Nat) (out : Bytes) : (emitGroupT cap j x out).res = emitGroup cap j x out := by
  unfold emitGroupT emitGroup putIfT putIf
  simp only [bind_res, ifT_res, putT_res, pure_res]

theorem emit_refines (cap i : Nat) (src : Bytes) (j n x : Nat) (out : Bytes) : (emitT cap i src j n x out).res = emit cap src j n x out := by
  induction src generalizing i j n x out with
  | nil => simp only [emitT, emit, bind_res, tick_res, Res.bind_ok, pure_res]
  | cons c rest ih =>
    rw [emitT, emit]
    simp only [bind_res, tick_res, ldT_res, Res.bind_ok, ifT_res, pure_res]
    by_cases h1 : c = 0x0d
    · rw [if_pos h1, if_pos (.inl h1), Res.bind_ok, if_pos rfl, ih]
    by_cases h2 : c = 0x0a
    · rw [if_neg h1, if_pos h2, if_pos (.inr (.inl h2)), Res.bind_ok, if_pos rfl, ih]
    by_cases h3 : c = 0x20
    · rw [if_neg h1, if_neg h2, if_pos h3, if_pos (.inr (.inr h3)), Res.bind_ok, if_pos rfl, ih]
    rw [if_neg h1, if_neg h2, if_neg h3, if_neg (by simp only [h1, h2, h3, or_self, not_false_eq_true]), Res.bind_ok, if_neg Bool.false_ne_true]
    have hr : rd decMap c.toNat = .ub ∨ ∃ d, rd decMap c.toNat = .ok d := by
      unfold rd; cases decMap[c.toNat]?
      · exact .inl rfl
      · exact .inr ⟨_, rfl⟩
    simp only [bind_res, ldT_res, rdT_res, Res.bind_ok]
    rcases hr with hr | ⟨d, hr⟩
    · rw [hr]; rfl
    · simp only [hr, Res.bind_ok]
      generalize (j + 4294967296 - (if d = 64 then 1 else 0)) % 4294967296 = j'
      generalize ((x <<< 6) % 4294967296) ||| (d &&& 0x3F) = x'
      rw [ifT_res]
      by_cases h4 : n + 1 = 4
      · rw [if_pos h4, if_pos h4, bind_res, emitGroup_refines]
        congr 1; funext o; rw [ih]
      · rw [if_neg h4, if_neg h4, ih]

theorem decode_refines (dst : Option Nat) (src : Bytes) : (decodeT dst src).res = decode dst src := by
  unfold decodeT decode
  rw [bind_res, scan_refines, Res.bind_ok]
  cases scan 0 src 0 0 with
  | none => rfl
  | some p =>
    obtain ⟨n, j⟩ := p
    cases dst with
    | none => simp [ifT_res]
    | some d => simp [ifT_res, bind_res, emit_refines]

theorem blitT_res (cap : Nat) (out : Bytes) (r : Rg) (off : Nat) (b : Bytes) : (blitT cap out r off b).res = blit cap out b := rfl

theorem pemLines_refines (cap off : Nat) (c out : Bytes) : (pemLinesT cap off c out).res = pemLines cap c out := by
  induction hn : c.length using Nat.strong_induction_on generalizing c out off with
  | _ m ih =>
    rw [pemLinesT, pemLines]
    by_cases h : c.length = 0
    · simp [h, bind_res]
    · rw [dif_neg h, dif_neg h]
      simp only [bind_res, tick_res, Res.bind_ok]
      have e : (ifT (c.length > 64) (pure 64) (pure c.length) : M Nat).res = .ok (if c.length > 64 then 64 else c.length) := by
        rw [ifT_res]; split <;> rfl
      rw [e, Res.bind_ok, dif_pos rfl]
      simp only [bind_res, blitT_res]
      congr 1; funext o1
      congr 1; funext o2
      exact ih _ (by rw [List.length_drop]; split <;> omega) _ _ _ rfl

theorem pemWrite_refines (header footer der : Bytes) (bufLen : Nat) : (pemWriteT header footer der bufLen).res = pemWrite header footer der bufLen := by
  unfold pemWriteT pemWrite pemFillT pemFill
  simp only [bind_res, encode_refines, ifT_res]
  congr 1; funext size
  split
  · rfl
  · congr 1; funext r
    cases r <;> simp [bind_res, blitT_res, pemLines_refines]

theorem pemDecode_refines (body : Bytes) (u : Nat) : (pemDecodeT body u).res = pemDecode body u := by
  unfold pemDecodeT pemDecode
  simp only [bind_res, decode_refines]
  congr 1; funext size
  cases size <;> simp only [bind_res, decode_refines, tick_res, Res.bind_ok, pure_res]
  all_goals (congr 1; funext r; cases r <;> simp [bind_res])

/-! ## The decoder shows the text -/

theorem look_inj {i j : Nat} {c d : UInt8} {r r' : List (Ev Rg)} (h : lookEv i c j ++ r = lookEv i d j ++ r') (hc : look c j ≠ .bad) :
    c = d ∧ r = r' := by
  unfold look at hc
  by_cases h1 : c.toNat > 127
  · exact absurd (by rw [if_pos (.inl h1)]) hc
  by_cases h3 : decMap.getD c.toNat 0 = 127
  · exact absurd (by rw [if_pos (.inr h3)]) hc
  unfold lookEv at h
  by_cases h2 : d.toNat > 127
  · simp [h1, h2] at h
  simp only [h1, h2, if_false, List.cons_append, List.cons.injEq, true_and, Ev.rd.injEq, and_true] at h
  have e : c = d := UInt8.toNat_inj.1 h.1
  subst e
  exact ⟨rfl, by simpa using h.2⟩

theorem char_inj {x i j : Nat} {c d : UInt8} {r r' : List (Ev Rg)} {rest : Bytes} (h : charEv x i c j ++ r = charEv x i d j ++ r')
    (h1 : c ≠ 0x20) (h2 : ¬ (c = 0x0d ∧ rest.head? = some 0x0a)) (hc : step x c rest j ≠ .bad) : c = d ∧ r = r' := by
  unfold step at hc
  rw [if_neg h1, if_neg h2] at hc
  unfold charEv at h
  by_cases a1 : c = 0x0a
  · by_cases a2 : d = 0x0a
    · rw [a1, a2] at h ⊢; exact ⟨rfl, by simpa using h⟩
    · simp [a1, a2] at h
  by_cases a2 : d = 0x0a
  · simp [a1, a2] at h
  by_cases a3 : x ≠ 0
  · exact absurd (by rw [if_neg a1, if_pos a3]) hc
  simp only [a1, a2, a3, if_false, List.cons_append, List.cons.injEq, true_and] at h
  rw [if_neg a1, if_neg a3] at hc
  by_cases a4 : c = 0x3d
  · by_cases a5 : d = 0x3d
    · refine ⟨a4.trans a5.symm, ?_⟩
      rw [a4, a5] at h
      simpa using h
    · simp [a4, a5] at h
  · by_cases a5 : d = 0x3d
    · simp [a4, a5] at h
    · simp only [a4, a5, if_false, true_and] at h
      refine look_inj h ?_
      unfold look
      simpa only [a4, if_false, false_and] using hc

/-- The events of a character that is not refused tell which one it is, and where they end. -/
theorem step_inj {x i j : Nat} {c d : UInt8} {s t : Bytes} {r r' : List (Ev Rg)} (h : stepEv x i c s j ++ r = stepEv x i d t j ++ r')
    (hc : step x c s j ≠ .bad) : c = d ∧ step x d t j = step x c s j ∧ r = r' := by
  unfold stepEv at h
  by_cases h1 : c = 0x20
  · by_cases h2 : d = 0x20
    · rw [h1, h2] at h ⊢
      refine ⟨rfl, by simp [step], by simpa using h⟩
    · simp [h1, h2] at h
  by_cases h2 : d = 0x20
  · simp [h1, h2] at h
  simp only [h1, h2, if_false, List.cons_append, List.cons.injEq, true_and, List.append_assoc] at h
  unfold eolEv at h
  have key : (c = 0x0d ∧ s.head? = some 0x0a ↔ d = 0x0d ∧ t.head? = some 0x0a) ∧
      (if c = 0x0d ∧ s.head? = some 0x0a then [] else charEv x i c j) ++ r = (if d = 0x0d ∧ t.head? = some 0x0a then [] else charEv x i d j) ++ r' ∧
      (c = 0x0d ∧ s.head? = some 0x0a → c = d) := by
    by_cases h3 : s = []
    · by_cases h4 : t = []
      · subst h3 h4
        simpa using h
      · simp [h3, h4] at h
    · by_cases h4 : t = []
      · simp [h3, h4] at h
      · simp only [h3, h4, if_false, List.cons_append, List.cons.injEq, true_and, ne_eq, not_false_eq_true, Ev.br.injEq, decide_eq_decide] at h
        obtain ⟨h5, h6⟩ := h
        by_cases h7 : c = 0x0d
        · have h8 := h5.1 h7
          simp only [h7, h8, if_true, List.cons_append, List.nil_append, List.cons.injEq, true_and, Ev.br.injEq, decide_eq_decide] at h6 ⊢
          exact ⟨h6.1, h6.2, fun _ => trivial⟩
        · have h8 : ¬ d = 0x0d := fun hd => h7 (h5.2 hd)
          simp only [h7, h8, if_false, List.nil_append, false_and] at h6 ⊢
          exact ⟨trivial, h6, fun h => h.elim⟩
  obtain ⟨k1, k2, k3⟩ := key
  by_cases h3 : c = 0x0d ∧ s.head? = some 0x0a
  · have h4 := k1.1 h3
    rw [if_pos h3, if_pos h4] at k2
    refine ⟨k3 h3, ?_, k2⟩
    unfold step
    rw [if_neg h1, if_neg h2, if_pos h3, if_pos h4]
  · have h4 : ¬ (d = 0x0d ∧ t.head? = some 0x0a) := fun hd => h3 (k1.2 hd)
    rw [if_neg h3, if_neg h4] at k2
    obtain ⟨e, hr⟩ := char_inj k2 h1 h3 hc
    subst e
    refine ⟨rfl, ?_, hr⟩
    unfold step
    rw [if_neg h3, if_neg h4]

theorem scanT_cons (top : Bool) (x i : Nat) (c : UInt8) (rest : Bytes) (n j : Nat) : (scanT top x i (c :: rest) n j).evs =
    (if top then [.br true] else []) ++ (stepEv x i c rest j ++ (match step x c rest j with
      | .space => scanT false ((x + 1) % 4294967296) (i + 1) rest n j
      | .eol => scanT true 0 (i + 1) rest n j
      | .bad => pure none
      | .char j => scanT true 0 (i + 1) rest (n + 1) j).evs) := by
  cases top
  · simp only [scanT, stepT_eq, if_false, Bool.false_eq_true, pureK, bindK, List.nil_append]
    cases step x c rest j <;> rfl
  · simp only [scanT, stepT_eq, if_true, tickK, bindK]
    cases step x c rest j <;> rfl

/-- What the first pass shows of an accepted text tells the text, and where it ends. -/
theorem scan_inj {top : Bool} {x i n j : Nat} {s t : Bytes} {r r' : List (Ev Rg)} (h : (scanT top x i s n j).evs ++ r = (scanT top x i t n j).evs ++ r')
    (hs : scan x s n j ≠ none) : s = t ∧ r = r' := by
  induction s generalizing top x i n j t with
  | nil =>
    cases t with
    | nil => exact ⟨rfl, by simpa using h⟩
    | cons d t =>
      exfalso
      rw [scanT_cons] at h
      cases top <;> simp [scanT, tickK, pureK, stepEv] at h
  | cons c s ih =>
    have hr := scan_refines top x i (c :: s) n j
    cases t with
    | nil =>
      exfalso
      rw [scanT_cons] at h
      cases top <;> simp [scanT, tickK, pureK, stepEv] at h
    | cons d t =>
      rw [scanT_cons, scanT_cons] at h
      have h' : stepEv x i c s j ++ ((match step x c s j with
          | .space => scanT false ((x + 1) % 4294967296) (i + 1) s n j
          | .eol => scanT true 0 (i + 1) s n j
          | .bad => pure none
          | .char j => scanT true 0 (i + 1) s (n + 1) j).evs ++ r) = stepEv x i d t j ++ ((match step x d t j with
          | .space => scanT false ((x + 1) % 4294967296) (i + 1) t n j
          | .eol => scanT true 0 (i + 1) t n j
          | .bad => pure none
          | .char j => scanT true 0 (i + 1) t (n + 1) j).evs ++ r') := by
        cases top <;> simpa using h
      have hres : (scanT top x i (c :: s) n j).res = (match step x c s j with
          | .space => .ok (scan ((x + 1) % 4294967296) s n j)
          | .eol => .ok (scan 0 s n j)
          | .bad => .ok none
          | .char j => .ok (scan 0 s (n + 1) j)) := by
        cases top <;> simp only [scanT, stepT_eq, bind_res, tick_res, Res.bind_ok, if_true, if_false, Bool.false_eq_true, pure_res] <;>
          cases step x c s j <;> simp only [scan_refines, pure_res]
      rw [hres] at hr
      have hb : step x c s j ≠ .bad := by
        intro hb
        rw [hb] at hr
        exact hs (Res.ok.inj hr).symm
      obtain ⟨e1, e2, e3⟩ := step_inj h' hb
      rw [e2] at e3
      subst e1
      cases hst : step x c s j with
      | bad => exact absurd hst hb
      | space =>
        rw [hst] at e3 hr
        obtain ⟨f1, f2⟩ := ih e3 (by rw [Res.ok.inj hr]; exact hs)
        exact ⟨by rw [f1], f2⟩
      | eol =>
        rw [hst] at e3 hr
        obtain ⟨f1, f2⟩ := ih e3 (by rw [Res.ok.inj hr]; exact hs)
        exact ⟨by rw [f1], f2⟩
      | char j' =>
        rw [hst] at e3 hr
        obtain ⟨f1, f2⟩ := ih e3 (by rw [Res.ok.inj hr]; exact hs)
        exact ⟨by rw [f1], f2⟩

/-- The events of a sequence begin with those of its first part. -/
theorem bind_evs {α β : Type} (x : M α) (f : α → M β) : ∃ r, (x >>= f).evs = x.evs ++ r := by
  obtain ⟨e, a⟩ := x
  cases a with
  | ok a => exact ⟨(f a).evs, rfl⟩
  | exc _ => exact ⟨[], (List.append_nil e).symm⟩
  | ub => exact ⟨[], (List.append_nil e).symm⟩

theorem decode_inj {d d' : Option Nat} {s t : Bytes} {r r' : List (Ev Rg)} (h : (decodeT d s).evs ++ r = (decodeT d' t).evs ++ r')
    (hs : decode d s ≠ .ok .invalidChar) : s = t := by
  obtain ⟨p, hp⟩ := bind_evs (scanT true 0 0 s 0 0) fun a => match a with
    | none => pure .invalidChar
    | some (n, j) =>
      ifT (n = 0) (retT (.ok [] 0))
        (let n := (6 * (n >>> 3) + ((6 * (n &&& 0x7) + 7) >>> 3) + W64 - j) % W64
        ifT (d = none) (retT (.tooSmall n)) (ifT (d.getD 0 < n) (retT (.tooSmall n)) (do
          let out ← emitT (d.getD 0) 0 s 3 0 0 []
          retT (.ok out out.length))))
  obtain ⟨q, hq⟩ := bind_evs (scanT true 0 0 t 0 0) fun a => match a with
    | none => pure .invalidChar
    | some (n, j) =>
      ifT (n = 0) (retT (.ok [] 0))
        (let n := (6 * (n >>> 3) + ((6 * (n &&& 0x7) + 7) >>> 3) + W64 - j) % W64
        ifT (d' = none) (retT (.tooSmall n)) (ifT (d'.getD 0 < n) (retT (.tooSmall n)) (do
          let out ← emitT (d'.getD 0) 0 t 3 0 0 []
          retT (.ok out out.length))))
  have e1 : (decodeT d s).evs = (scanT true 0 0 s 0 0).evs ++ p := hp
  have e2 : (decodeT d' t).evs = (scanT true 0 0 t 0 0).evs ++ q := hq
  rw [e1, e2, List.append_assoc, List.append_assoc] at h
  refine (scan_inj h ?_).1
  intro hn
  apply hs
  unfold decode
  rw [hn]

/-! ## The encoder shows the bytes -/

/-- The events of one complete group at `i` of the input and `o` of the output. -/
def groupEv (i o a b c : Nat) : List (Ev Rg) :=
  [.br true, .rd .src i 1, .rd .src (i + 1) 1, .rd .src (i + 2) 1,
    .rd .encMap ((a >>> 2) &&& 0x3F) 1, .wr .dst o 1, .rd .encMap ((((a &&& 3) <<< 4) + (b >>> 4)) &&& 0x3F) 1, .wr .dst (o + 1) 1,
    .rd .encMap ((((b &&& 15) <<< 2) + (c >>> 6)) &&& 0x3F) 1, .wr .dst (o + 2) 1, .rd .encMap (c &&& 0x3F) 1, .wr .dst (o + 3) 1]

/-- The events of the last group. -/
def tailEv (i o : Nat) : Bytes → List (Ev Rg)
  | [] => [.br false]
  | [a] => [.br true, .rd .src i 1, .br false, .rd .encMap ((a.toNat >>> 2) &&& 0x3F) 1, .wr .dst o 1,
      .rd .encMap ((((a.toNat &&& 3) <<< 4) + ((0 : UInt8).toNat >>> 4)) &&& 0x3F) 1, .wr .dst (o + 1) 1, .br false, .wr .dst (o + 2) 1, .wr .dst (o + 3) 1]
  | a :: b :: _ => [.br true, .rd .src i 1, .br true, .rd .src (i + 1) 1, .rd .encMap ((a.toNat >>> 2) &&& 0x3F) 1, .wr .dst o 1,
      .rd .encMap ((((a.toNat &&& 3) <<< 4) + (b.toNat >>> 4)) &&& 0x3F) 1, .wr .dst (o + 1) 1, .br true,
      .rd .encMap (((b.toNat &&& 15) <<< 2) &&& 0x3F) 1, .wr .dst (o + 2) 1, .wr .dst (o + 3) 1]

/-- The events of the groups. -/
def groupsEv (i o : Nat) : Bytes → List (Ev Rg)
  | a :: b :: c :: r => groupEv i o a.toNat b.toNat c.toNat ++ groupsEv (i + 3) (o + 4) r
  | _ => [.br false]

theorem putEncT_ok {cap : Nat} {out : Bytes} {v : Nat} (hv : v < 64) (h : out.length < cap) :
    putEncT cap out v = ⟨[.rd .encMap v 1, .wr .dst out.length 1], .ok (out ++ [Spec.digit v])⟩ := by
  have e : rd encMap v = .ok (Spec.digit v) := by rw [rd, encMap_digit v hv]
  unfold putEncT rdT
  rw [e, bindK]
  simp [putT, put_ok h]

theorem putT_ok {cap : Nat} {out : Bytes} {b : UInt8} (h : out.length < cap) : putT cap out b = ⟨[.wr .dst out.length 1], .ok (out ++ [b])⟩ := by
  rw [putT, put_ok h]

theorem groups_eq {cap : Nat} (k : Nat) (pre mid rest out : Bytes) (hm : mid.length = 3 * k) (hc : out.length + 4 * k ≤ cap) :
    encGroupsT cap (pre ++ mid ++ rest) k pre.length out = ⟨groupsEv pre.length out.length mid, .ok (out ++ Spec.base64 mid)⟩ := by
  have hres := encGroupsT_res cap (pre ++ mid ++ rest) k pre.length out
  rw [encGroups_spec k pre mid rest out hm hc] at hres
  suffices h : (encGroupsT cap (pre ++ mid ++ rest) k pre.length out).evs = groupsEv pre.length out.length mid by
    rw [← h, ← hres]
  clear hres
  induction k generalizing pre mid out with
  | zero =>
    have : mid = [] := List.length_eq_zero_iff.1 (by omega)
    subst this
    rfl
  | succ k ih =>
    match mid, hm with
    | a :: b :: c :: mid', hm =>
      have hl : mid'.length = 3 * k := by simp at hm; omega
      have r1 : rd (pre ++ a :: b :: c :: mid' ++ rest) pre.length = .ok a := by
        rw [List.append_assoc]; exact rd_mid pre a _
      have r2 : rd (pre ++ a :: b :: c :: mid' ++ rest) (pre.length + 1) = .ok b := by
        have := rd_mid (pre ++ [a]) b (c :: mid' ++ rest)
        simpa using this
      have r3 : rd (pre ++ a :: b :: c :: mid' ++ rest) (pre.length + 2) = .ok c := by
        have := rd_mid (pre ++ [a, b]) c (mid' ++ rest)
        simpa using this
      unfold encGroupsT
      rw [tickK, bindK, rdT, r1, bindK, rdT, r2, bindK, rdT, r3, bindK,
        putEncT_ok (by rw [and63]; omega) (by omega), bindK,
        putEncT_ok (by rw [and63]; omega) (by simp; omega), bindK,
        putEncT_ok (by rw [and63]; omega) (by simp; omega), bindK,
        putEncT_ok (by rw [and63]; omega) (by simp; omega), bindK]
      have hi := ih (pre ++ [a, b, c]) mid' (out ++ [Spec.digit ((a.toNat >>> 2) &&& 0x3F)] ++
        [Spec.digit ((((a.toNat &&& 3) <<< 4) + (b.toNat >>> 4)) &&& 0x3F)] ++
        [Spec.digit ((((b.toNat &&& 15) <<< 2) + (c.toNat >>> 6)) &&& 0x3F)] ++ [Spec.digit (c.toNat &&& 0x3F)]) hl (by simp; omega)
      have e1 : pre ++ [a, b, c] ++ mid' ++ rest = pre ++ a :: b :: c :: mid' ++ rest := by simp
      have e2 : (pre ++ [a, b, c]).length = pre.length + 3 := by simp
      rw [e1, e2] at hi
      simp only [hi]
      simp [groupsEv, groupEv]

theorem tail_eq {cap : Nat} (pre mid out : Bytes) (hm : mid.length < 3) (hc : mid ≠ [] → out.length + 4 ≤ cap) :
    encTailT cap (pre ++ mid) pre.length out = ⟨tailEv pre.length out.length mid, .ok (out ++ Spec.base64 mid)⟩ := by
  match mid, hm with
  | [], _ => simp [encTailT, ifK, pureK, tailEv, Spec.base64]
  | [a], _ =>
    have hc := hc (by simp)
    have hres := encTailT_res cap (pre ++ [a]) pre.length out
    rw [encTail_spec pre [a] out (by simp) hc] at hres
    suffices h : (encTailT cap (pre ++ [a]) pre.length out).evs = tailEv pre.length out.length [a] by
      rw [← h, ← hres]
    unfold encTailT
    rw [ifK, if_pos (by simp), rdT, rd_mid, bindK, ifK, if_neg (by simp), pureK, bindK,
      putEncT_ok (by rw [and63]; omega) (by omega), bindK,
      putEncT_ok (by rw [and63]; omega) (by simp; omega), bindK, ifK, if_neg (by simp),
      putT_ok (by simp; omega), bindK, putT_ok (by simp; omega)]
    simp [tailEv]
  | [a, b], _ =>
    have hc := hc (by simp)
    have hres := encTailT_res cap (pre ++ [a, b]) pre.length out
    rw [encTail_spec pre [a, b] out (by simp) hc] at hres
    suffices h : (encTailT cap (pre ++ [a, b]) pre.length out).evs = tailEv pre.length out.length [a, b] by
      rw [← h, ← hres]
    have r2 : rd (pre ++ [a, b]) (pre.length + 1) = .ok b := by
      have := rd_mid (pre ++ [a]) b []
      simpa using this
    unfold encTailT
    rw [ifK, if_pos (by simp), rdT, rd_mid, bindK, ifK, if_pos (by simp), rdT, r2, bindK,
      putEncT_ok (by rw [and63]; omega) (by omega), bindK,
      putEncT_ok (by rw [and63]; omega) (by simp; omega), bindK, ifK, if_pos (by simp),
      putEncT_ok (by rw [and63]; omega) (by simp; omega), bindK, putT_ok (by simp; omega)]
    simp [tailEv]

/-- The events of the whole text. -/
def textEv (i o : Nat) : Bytes → List (Ev Rg)
  | a :: b :: c :: r => groupEv i o a.toNat b.toNat c.toNat ++ textEv (i + 3) (o + 4) r
  | t => .br false :: tailEv i o t

theorem textEv_split (k i o : Nat) (s t : Bytes) (hs : s.length = 3 * k) (ht : t.length < 3) :
    textEv i o (s ++ t) = groupsEv i o s ++ tailEv (i + 3 * k) (o + 4 * k) t := by
  induction k generalizing i o s with
  | zero =>
    have : s = [] := List.length_eq_zero_iff.1 (by omega)
    subst this
    match t, ht with
    | [], _ => rfl
    | [a], _ => rfl
    | [a, b], _ => rfl
  | succ k ih =>
    match s, hs with
    | a :: b :: c :: s', hs =>
      simp only [List.cons_append, textEv, groupsEv, List.append_assoc, ih (i + 3) (o + 4) s' (by simp at hs; omega)]
      rw [show i + 3 + 3 * k = i + 3 * (k + 1) by omega, show o + 4 + 4 * k = o + 4 * (k + 1) by omega]

theorem group_inj {i o a b c a' b' c' : Nat} (ha : a < 256) (hb : b < 256) (hc : c < 256) (ha' : a' < 256) (hb' : b' < 256) (hc' : c' < 256)
    {r r' : List (Ev Rg)} (h : groupEv i o a b c ++ r = groupEv i o a' b' c' ++ r') : a = a' ∧ b = b' ∧ c = c' ∧ r = r' := by
  simp only [groupEv, List.cons_append, List.nil_append, List.cons.injEq, true_and, Ev.rd.injEq, and_true, and63, and15, and3,
    Nat.shiftRight_eq_div_pow, Nat.shiftLeft_eq, Nat.reducePow] at h
  obtain ⟨h1, h2, h3, h4, h5⟩ := h
  refine ⟨by omega, by omega, by omega, h5⟩

theorem tail_inj {i o : Nat} {s t : Bytes} (hs : s.length < 3) (ht : t.length < 3) {r r' : List (Ev Rg)}
    (h : tailEv i o s ++ r = tailEv i o t ++ r') : s = t ∧ r = r' := by
  match s, hs, t, ht with
  | [], _, [], _ => exact ⟨rfl, by simpa [tailEv] using h⟩
  | [], _, [_], _ => simp [tailEv] at h
  | [], _, [_, _], _ => simp [tailEv] at h
  | [_], _, [], _ => simp [tailEv] at h
  | [a], _, [b], _ =>
    simp only [tailEv, List.cons_append, List.nil_append, List.cons.injEq, true_and, Ev.rd.injEq, and_true, and63, and15, and3,
      Nat.shiftRight_eq_div_pow, Nat.shiftLeft_eq, Nat.reducePow] at h
    obtain ⟨h1, h2, h3⟩ := h
    have ha := a.toNat_lt
    have hb := b.toNat_lt
    simp only [show (0 : UInt8).toNat = 0 from rfl] at h2
    refine ⟨by rw [UInt8.toNat_inj.1 (show a.toNat = b.toNat by omega)], h3⟩
  | [_], _, [_, _], _ => simp [tailEv] at h
  | [_, _], _, [], _ => simp [tailEv] at h
  | [_, _], _, [_], _ => simp [tailEv] at h
  | [a, b], _, [c, d], _ =>
    simp only [tailEv, List.cons_append, List.nil_append, List.cons.injEq, true_and, Ev.rd.injEq, and_true, and63, and15, and3,
      Nat.shiftRight_eq_div_pow, Nat.shiftLeft_eq, Nat.reducePow] at h
    obtain ⟨h1, h2, h3, h4⟩ := h
    have ha := a.toNat_lt
    have hb := b.toNat_lt
    have hc := c.toNat_lt
    have hd := d.toNat_lt
    refine ⟨by rw [UInt8.toNat_inj.1 (show a.toNat = c.toNat by omega), UInt8.toNat_inj.1 (show b.toNat = d.toNat by omega)], h4⟩

theorem text_inj : ∀ (s t : Bytes) (i o : Nat) {r r' : List (Ev Rg)}, textEv i o s ++ r = textEv i o t ++ r' → s = t ∧ r = r'
  | a :: b :: c :: s, d :: e :: f :: t, i, o, r, r', h => by
    simp only [textEv, List.append_assoc] at h
    obtain ⟨h1, h2, h3, h4⟩ := group_inj a.toNat_lt b.toNat_lt c.toNat_lt d.toNat_lt e.toNat_lt f.toNat_lt h
    obtain ⟨h5, h6⟩ := text_inj s t (i + 3) (o + 4) h4
    exact ⟨by rw [UInt8.toNat_inj.1 h1, UInt8.toNat_inj.1 h2, UInt8.toNat_inj.1 h3, h5], h6⟩
  | a :: b :: c :: s, [], i, o, r, r', h => by simp [textEv, groupEv] at h
  | a :: b :: c :: s, [_], i, o, r, r', h => by simp [textEv, groupEv] at h
  | a :: b :: c :: s, [_, _], i, o, r, r', h => by simp [textEv, groupEv] at h
  | [], d :: e :: f :: t, i, o, r, r', h => by simp [textEv, groupEv] at h
  | [_], d :: e :: f :: t, i, o, r, r', h => by simp [textEv, groupEv] at h
  | [_, _], d :: e :: f :: t, i, o, r, r', h => by simp [textEv, groupEv] at h
  | [], [], i, o, r, r', h => ⟨rfl, by simpa [textEv] using h⟩
  | [], [_], i, o, r, r', h => tail_inj (by simp) (by simp) (by simpa [textEv] using h)
  | [], [_, _], i, o, r, r', h => tail_inj (by simp) (by simp) (by simpa [textEv] using h)
  | [_], [], i, o, r, r', h => tail_inj (by simp) (by simp) (by simpa [textEv] using h)
  | [_], [_], i, o, r, r', h => tail_inj (by simp) (by simp) (by simpa [textEv] using h)
  | [_], [_, _], i, o, r, r', h => tail_inj (by simp) (by simp) (by simpa [textEv] using h)
  | [_, _], [], i, o, r, r', h => tail_inj (by simp) (by simp) (by simpa [textEv] using h)
  | [_, _], [_], i, o, r, r', h => tail_inj (by simp) (by simp) (by simpa [textEv] using h)
  | [_, _], [_, _], i, o, r, r', h => tail_inj (by simp) (by simp) (by simpa [textEv] using h)

theorem encFill_evs {s : Bytes} {d : Nat} (hd : 4 * ((s.length + 2) / 3) < d) : (encFillT d s).evs = textEv 0 0 s ++ [.wr .olen 0 8, .wr .dst (4 * ((s.length + 2) / 3)) 1] := by
  have hm : (s.take (s.length / 3 * 3)).length = 3 * (s.length / 3) := by simp; omega
  have h1 := groups_eq (cap := d) (s.length / 3) [] (s.take (s.length / 3 * 3)) (s.drop (s.length / 3 * 3)) [] hm (by simp; omega)
  simp only [List.nil_append, List.take_append_drop, List.length_nil] at h1
  have hlt : (s.drop (s.length / 3 * 3)).length < 3 := by simp; omega
  have h2 := tail_eq (cap := d) (s.take (s.length / 3 * 3)) (s.drop (s.length / 3 * 3)) (Spec.base64 (s.take (s.length / 3 * 3))) hlt (by
    intro hne
    have : 0 < (s.drop (s.length / 3 * 3)).length := List.length_pos_iff.2 hne
    simp only [List.length_drop] at this
    rw [base64_length, hm]; omega)
  rw [List.take_append_drop, ← base64_append _ _ _ hm, List.take_append_drop, hm, base64_length, hm] at h2
  have h3 := textEv_split (s.length / 3) 0 0 (s.take (s.length / 3 * 3)) (s.drop (s.length / 3 * 3)) hm hlt
  rw [List.take_append_drop] at h3
  unfold encFillT
  have h2' : encTailT d s (s.length / 3 * 3) (Spec.base64 (s.take (s.length / 3 * 3))) =
      ⟨tailEv (3 * (s.length / 3)) (4 * ((3 * (s.length / 3) + 2) / 3)) (s.drop (s.length / 3 * 3)), .ok (Spec.base64 s)⟩ := by
    rw [← h2]; congr 1; omega
  rw [h1, bindK, h2', bindK, retT, bindK, putT_ok (by rw [base64_length]; omega), bindK, h3, base64_length]
  simp
  congr 2; omega

theorem encode_evs {s : Bytes} (hs : s ≠ []) (hlen : s.length < 2 ^ 63) {d : Nat} (hd : 4 * ((s.length + 2) / 3) < d) :
    (encodeT (some d) s).evs = .br false :: .br false :: .br false :: .br false :: (textEv 0 0 s ++ [.wr .olen 0 8, .wr .dst (4 * ((s.length + 2) / 3)) 1]) := by
  have hn : s.length ≠ 0 := fun h => hs (List.length_eq_zero_iff.1 h)
  have e : s.length / 3 + (if s.length % 3 ≠ 0 then 1 else 0) = (s.length + 2) / 3 := by split <;> omega
  have c1 : ¬ ((s.length + 2) / 3 > (W64 - 1 - 1) / 4) := by omega
  have c2 : ¬ (d < (s.length + 2) / 3 * 4 + 1) := by omega
  unfold encodeT
  simp only [e]
  rw [ifK, if_neg hn, ifK, if_neg c1, ifK, Option.getD_some, if_neg c2, ifK, if_neg (by simp), encFill_evs hd]
  simp only [hn, c1, c2, decide_false, reduceCtorEq]

/-! ## C107 -/

/-- **C107**: the functions with events compute what the functions of `Verif/Io/Base64.lean` and `Verif/Io/Pem.lean` compute. -/
theorem c107_refines :
    (∀ dst s, (encodeT dst s).res = encode dst s) ∧ (∀ dst s, (decodeT dst s).res = decode dst s) ∧
    (∀ header footer der n, (pemWriteT header footer der n).res = pemWrite header footer der n) ∧
    ∀ body u, (pemDecodeT body u).res = pemDecode body u :=
  ⟨encode_refines, decode_refines, pemWrite_refines, pemDecode_refines⟩

/-- **C107**: whoever sees the branches and the addresses while bytes are encoded knows the bytes: the events are the same exactly if the bytes are. -/
theorem c107_encode {s t : Bytes} (hs : s ≠ []) (ht : t ≠ []) (hs' : s.length < 2 ^ 63) (ht' : t.length < 2 ^ 63) {d d' : Nat}
    (hd : 4 * ((s.length + 2) / 3) < d) (hd' : 4 * ((t.length + 2) / 3) < d') :
    (encodeT (some d) s).evs = (encodeT (some d') t).evs ↔ s = t := by
  rw [encode_evs hs hs' hd, encode_evs ht ht' hd']
  constructor
  · intro h
    simp only [List.cons.injEq, true_and] at h
    exact (text_inj s t 0 0 h).1
  · rintro rfl; rfl

/-- **C107**: the call that asks for the size shows nothing of the bytes. -/
theorem c107_size {s t : Bytes} (hs : s ≠ []) (ht : t ≠ []) (hs' : s.length < 2 ^ 63) (ht' : t.length < 2 ^ 63) :
    (encodeT none s).evs = (encodeT none t).evs := by
  have key : ∀ {s : Bytes}, s ≠ [] → s.length < 2 ^ 63 → (encodeT none s).evs = [.br false, .br false, .br true, .wr .olen 0 8] := by
    intro s hs hs'
    have hn : s.length ≠ 0 := fun h => hs (List.length_eq_zero_iff.1 h)
    have e : s.length / 3 + (if s.length % 3 ≠ 0 then 1 else 0) = (s.length + 2) / 3 := by split <;> omega
    have c1 : ¬ ((s.length + 2) / 3 > (W64 - 1 - 1) / 4) := by omega
    have c2 : 0 < (s.length + 2) / 3 * 4 + 1 := by omega
    unfold encodeT
    simp only [e]
    rw [ifK, if_neg hn, ifK, if_neg c1, ifK, Option.getD_none, if_pos c2, retT]
    simp only [hn, c1, c2, decide_false, decide_true]
  rw [key hs hs', key ht ht']

/-- **C107**: whoever sees the branches and the addresses while an accepted text is decoded, also with a null pointer, knows the text. -/
theorem c107_decode {d d' : Option Nat} {s t : Bytes} (hs : decode d s ≠ .ok .invalidChar) (h : (decodeT d s).evs = (decodeT d' t).evs) : s = t :=
  decode_inj (r := []) (r' := []) (by rw [h]) hs

/-- **C107**, the condition that the text is accepted is needed: what follows the first invalid character is not seen, nor which invalid character it is. -/
theorem c107_refused_false : ∃ s t, s ≠ t ∧ (decodeT none s).evs = (decodeT none t).evs := ⟨[0x80, 1], [0x81, 2, 3], by decide, by decide⟩

theorem sizing_evs (header footer : Bytes) {der : Bytes} (hd : der ≠ []) (hl : der.length < 2 ^ 60) (bufLen : Nat) {out : Bytes}
    (h : pemWrite header footer der bufLen = .ok (some out)) :
    ∃ r, (pemWriteT header footer der bufLen).evs = (encodeT none der).evs ++ .br false :: ((encodeT (some (4 * ((der.length + 2) / 3) + 1)) der).evs ++ r) := by
  have e1 : encodeT none der = ⟨(encodeT none der).evs, .ok (.tooSmall (4 * ((der.length + 2) / 3) + 1))⟩ := by
    have := encode_refines none der
    rw [c44_encode der hd (by omega) none] at this
    rw [← this]
  have e2 := c44_encode der hd (by omega) none
  unfold pemWrite at h
  rw [e2, Res.bind_ok] at h
  unfold pemWriteT
  rw [e1, bindK]
  simp only [B64.olen] at h ⊢
  unfold pemFill at h
  unfold pemFillT
  simp only at h ⊢
  by_cases hc : (4 * ((der.length + 2) / 3) + 1 + (header.length + footer.length + (4 * ((der.length + 2) / 3) + 1) / 64 + 1)) % W64 > bufLen
  · rw [if_pos hc] at h
    simp at h
  · rw [ifK, if_neg hc]
    obtain ⟨r, hr⟩ := bind_evs (encodeT (some (4 * ((der.length + 2) / 3) + 1)) der) fun r => match r with
      | .ok text len => do
        tick false
        let out ← blitT bufLen [] .mark 0 header
        let out ← pemLinesT bufLen 0 (text.take len) out
        let out ← blitT bufLen out .mark 0 footer
        let out ← ⟨[.wr .buf out.length 1], put bufLen out 0⟩
        pure (some out)
      | _ => do
        tick true
        pure none
    refine ⟨r, ?_⟩
    simp only [hc, decide_false]
    exact congrArg (fun l => (encodeT none der).evs ++ Ev.br false :: l) hr

/-- **C107**: the same for the writing of a PEM file that fits the buffer. -/
theorem c107_write {header footer header' footer' : Bytes} {der der' : Bytes} (hd : der ≠ []) (hd' : der' ≠ []) (hl : der.length < 2 ^ 60)
    (hl' : der'.length < 2 ^ 60) {n n' : Nat} {out out' : Bytes} (h : pemWrite header footer der n = .ok (some out))
    (h' : pemWrite header' footer' der' n' = .ok (some out')) (he : (pemWriteT header footer der n).evs = (pemWriteT header' footer' der' n').evs) :
    der = der' := by
  obtain ⟨r, hr⟩ := sizing_evs header footer hd hl n h
  obtain ⟨r', hr'⟩ := sizing_evs header' footer' hd' hl' n' h'
  rw [hr, hr', c107_size hd hd' (by omega) (by omega)] at he
  have he := List.append_cancel_left he
  rw [encode_evs hd (by omega) (by omega), encode_evs hd' (by omega) (by omega)] at he
  simp only [List.cons_append, List.cons.injEq, true_and, List.append_assoc] at he
  exact (text_inj der der' 0 0 he).1

/-- `RSAPrivateKey` of RFC 8017 determines the numbers. -/
theorem der_inj {k l : Tdp.Rsa} {s u : Tdp.Priv} (hk : k.priv = some s) (hl : l.priv = some u) (ck : Tdp.checkPriv k = true) (cl : Tdp.checkPriv l = true)
    (hD : s.D < 256 ^ 80000) (hD' : u.D < 256 ^ 80000) (h : Spec.rsaPrivateKey k.N k.E s = Spec.rsaPrivateKey l.N l.E u) : k.N = l.N ∧ k.E = l.E ∧ s = u := by
  have key : ∀ {k : Tdp.Rsa} {s : Tdp.Priv}, k.priv = some s → Tdp.checkPriv k = true → s.D < 256 ^ 80000 →
      parsePkcs1 (Spec.rsaPrivateKey k.N k.E s) = .ok (mkPriv k.N k.E s) := by
    intro k s hk ck hD
    obtain ⟨h1, h2, h3, h4, h5, h6, h7, h8⟩ := checkPriv_nums hk ck hD
    have hc : Tdp.checkPriv (mkPriv k.N k.E s) = true := by
      rw [← ck]; unfold Tdp.checkPriv Tdp.checkPub; rw [hk]; rfl
    rw [parsePkcs1_spec h1 h2 h3 h4 h5 h6 h7 h8, if_pos hc]
  have e := key hk ck hD
  rw [h, key hl cl hD'] at e
  have e := (Res.ok.inj e).symm
  unfold mkPriv at e
  simp only [Tdp.Rsa.mk.injEq, Option.some.injEq, and_true] at e
  exact e.2

/-- **C107**: whoever sees the branches and the addresses while the PEM file of a private key is written (`private_key()`, with its buffer of 5000 bytes) knows
the key: two keys that pass the check of the library and are exported with the same events have the same numbers. -/
theorem c107_export {k l : Tdp.Rsa} {s u : Tdp.Priv} (hk : k.priv = some s) (hl : l.priv = some u) (ck : Tdp.checkPriv k = true) (cl : Tdp.checkPriv l = true)
    (hD : s.D < 256 ^ 80000) (hD' : u.D < 256 ^ 80000) {text text' : Bytes} (h : privateKey k = .ok text) (h' : privateKey l = .ok text')
    (he : (pemWriteT (privHeader ++ [0x0a]) (privFooter ++ [0x0a]) (Spec.rsaPrivateKey k.N k.E s) 5000).evs =
      (pemWriteT (privHeader ++ [0x0a]) (privFooter ++ [0x0a]) (Spec.rsaPrivateKey l.N l.E u) 5000).evs) : k.N = l.N ∧ k.E = l.E ∧ s = u := by
  have key : ∀ {k : Tdp.Rsa} {s : Tdp.Priv} {text : Bytes}, k.priv = some s → Tdp.checkPriv k = true → s.D < 256 ^ 80000 → privateKey k = .ok text →
      (Spec.rsaPrivateKey k.N k.E s).length < 2 ^ 60 ∧
      ∃ out, pemWrite (privHeader ++ [0x0a]) (privFooter ++ [0x0a]) (Spec.rsaPrivateKey k.N k.E s) 5000 = .ok (some out) := by
    intro k s text hk ck hD h
    obtain ⟨h1, h2, h3, h4, h5, h6, h7, h8⟩ := checkPriv_nums hk ck hD
    have hlen := (rsaPrivateKey_length h1 h2 h3 h4 h5 h6 h7 h8).1
    obtain ⟨m1, m2, -, -⟩ := markLengths
    have hw := writePem_spec (header := privHeader) (footer := privFooter) (rsaPrivateKey_ne k.N k.E s) (by omega) (by omega) 5000
    rw [show privHeader.length + privFooter.length + 2 = 62 by omega] at hw
    rw [c42_export_private hk ck hD] at h
    refine ⟨by omega, ?_⟩
    by_cases hfit : pemNeed (Spec.rsaPrivateKey k.N k.E s).length 62 ≤ 5000
    · rw [if_pos hfit] at hw
      exact ⟨_, hw⟩
    · rw [if_neg hfit] at h
      cases h
  obtain ⟨l1, o1, p1⟩ := key hk ck hD h
  obtain ⟨l2, o2, p2⟩ := key hl cl hD' h'
  exact der_inj hk hl ck cl hD hD' (c107_write (rsaPrivateKey_ne _ _ _) (rsaPrivateKey_ne _ _ _) l1 l2 p1 p2 he)

/-- **C107**: whoever sees the branches and the addresses while the text between the markers of an accepted PEM file is decoded knows the text. -/
theorem c107_import {body body' : Bytes} {u u' : Nat} (hb : pemDecode body u ≠ .ok .invalidData) (h : (pemDecodeT body u).evs = (pemDecodeT body' u').evs) :
    body = body' := by
  have hs : decode none body ≠ .ok .invalidChar := by
    intro hs
    apply hb
    unfold pemDecode
    rw [hs, Res.bind_ok]
  obtain ⟨r, hr⟩ := bind_evs (decodeT none body) fun size => match size with
    | .invalidChar => do
      tick true
      pure PemR.invalidData
    | .ok _ len | .tooSmall len => do
      tick false
      let r ← decodeT (some len) body
      match r with
      | .ok out _ => do
        tick false
        pure (PemR.ok out u)
      | _ => do
        tick true
        pure PemR.invalidData
  obtain ⟨r', hr'⟩ := bind_evs (decodeT none body') fun size => match size with
    | .invalidChar => do
      tick true
      pure PemR.invalidData
    | .ok _ len | .tooSmall len => do
      tick false
      let r ← decodeT (some len) body'
      match r with
      | .ok out _ => do
        tick false
        pure (PemR.ok out u')
      | _ => do
        tick true
        pure PemR.invalidData
  have e1 : (pemDecodeT body u).evs = (decodeT none body).evs ++ r := hr
  have e2 : (pemDecodeT body' u').evs = (decodeT none body').evs ++ r' := hr'
  rw [e1, e2] at h
  exact decode_inj h hs

/-! ## Examples -/

example : (encodeT (some 9) [1, 2, 3, 4]).evs ≠ (encodeT (some 9) [1, 2, 3, 5]).evs := fun h =>
  absurd ((c107_encode (by simp) (by simp) (by decide) (by decide) (by decide) (by decide)).1 h) (by decide)
example : (encodeT none [1, 2, 3]).evs = (encodeT none [7, 8]).evs := c107_size (by simp) (by simp) (by decide) (by decide)
-- "QUI=\n" and "QUE=\n"
example : (decodeT none [0x51, 0x55, 0x49, 0x3d, 0x0a]).evs ≠ (decodeT none [0x51, 0x55, 0x45, 0x3d, 0x0a]).evs := fun h =>
  absurd (c107_decode (by decide +kernel) h) (by decide)
example : ∃ out, pemWrite [0x2d] [0x2d] [1, 2, 3] 20 = .ok (some out) := ⟨_, (c48_write [0x2d] [0x2d] [1, 2, 3] (by simp) (by decide) (by decide) 20).2⟩
example : ∃ text, privateKey exKey = .ok text ∧ ∀ l u text', l.priv = some u → checkPriv l = true → u.D < 256 ^ 80000 → privateKey l = .ok text' →
    (pemWriteT (privHeader ++ [0x0a]) (privFooter ++ [0x0a]) (Spec.rsaPrivateKey exKey.N exKey.E exPriv) 5000).evs =
      (pemWriteT (privHeader ++ [0x0a]) (privFooter ++ [0x0a]) (Spec.rsaPrivateKey l.N l.E u) 5000).evs → exKey.N = l.N ∧ exKey.E = l.E ∧ exPriv = u := by
  obtain ⟨text, h, -⟩ := c42_private_2048 (k := exKey) (s := exPriv) rfl exKey_check (by decide +kernel) (by decide +kernel) (by decide +kernel)
  exact ⟨text, h, fun l u text' hl cl hD h' he => c107_export rfl hl exKey_check cl (by decide +kernel) hD h h' he⟩
example : pemDecode [0x51, 0x55, 0x49, 0x3d, 0x0a] 0 ≠ .ok .invalidData := by decide +kernel

end Verif.Io.Traced
