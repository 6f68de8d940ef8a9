import Verif.Bignum.Model

/-!
# The inner loops of `bignum.c` in memory: `MULADDC_*` of `bn_mul.h` and `mpi_mul_hlp`

`bn_mul.h` defines `MULADDC_INIT`, `MULADDC_CORE` and `MULADDC_STOP` as inline assembly for x86-64 (lines 161-185; `MBEDTLS_HAVE_ASM` is set in
config.h 56), and in C with double-width (839-857) or only with single-width integers (859-885). `Verif/Bignum/Model.lean` has the effect of one
`MULADDC_CORE` on numbers and one loop. Here the three versions are modelled as they are, on a memory of 64-bit words, and `mpi_mul_hlp`
(bignum.c 1046-1108) with its unrolled loops over any of them.

Memory is a partial map from addresses (of bytes) to words; an access to an address that is not mapped is a fault (`none`). Only words at
multiples of 8 bytes from a mapped word are accessed, so words do not overlap.
-/

namespace Verif.Bignum.Kernel

open Verif

abbrev Mem := Nat → Option Nat

/-- A store to a mapped word. -/
def store (m : Mem) (a v : Nat) : Option Mem :=
  match m a with
  | none => none
  | some _ => some fun x => if x = a then some v else m x

/-! ## x86-64 -/

inductive Reg where
  | rax | rbx | rcx | rdx | rsi | rdi | r8
  deriving DecidableEq

/-- Registers, carry flag, memory. -/
structure Cpu where
  reg : Reg → Nat
  cf : Bool
  mem : Mem

def Cpu.set (x : Cpu) (r : Reg) (v : Nat) : Cpu := { x with reg := fun q => if q = r then v else x.reg q }

/-- The instructions that occur, operands in the order of the source (AT&T: source first). -/
inductive Ins where
  /-- `xorq s, d` -/
  | xor (s d : Reg)
  /-- `movq (a), d` -/
  | load (a d : Reg)
  /-- `movq s, d` -/
  | mov (s d : Reg)
  /-- `mulq s` -/
  | mul (s : Reg)
  /-- `addq $n, d` -/
  | addI (n : Nat) (d : Reg)
  /-- `addq s, d` -/
  | add (s d : Reg)
  /-- `addq s, (a)` -/
  | addM (s a : Reg)
  /-- `adcq $n, d` -/
  | adcI (n : Nat) (d : Reg)
  /-- `adcq s, d` -/
  | adc (s d : Reg)
  | nop

def bit (b : Bool) : Nat := if b then 1 else 0

/-- One instruction; `none` is a fault. Flags other than the carry are not used. -/
def step (x : Cpu) : Ins → Option Cpu
  | .xor s d => some { x.set d (x.reg s ^^^ x.reg d) with cf := false }
  | .load a d => (x.mem (x.reg a)).map fun v => x.set d v
  | .mov s d => some (x.set d (x.reg s))
  | .mul s =>
    let p := x.reg .rax * x.reg s
    some { (x.set .rax (p % W64)).set .rdx (p / W64) with cf := decide (p / W64 ≠ 0) }
  | .addI n d => let t := x.reg d + n; some { x.set d (t % W64) with cf := decide (W64 ≤ t) }
  | .add s d => let t := x.reg d + x.reg s; some { x.set d (t % W64) with cf := decide (W64 ≤ t) }
  | .addM s a =>
    match x.mem (x.reg a) with
    | none => none
    | some v =>
      let t := v + x.reg s
      (store x.mem (x.reg a) (t % W64)).map fun m => { x with mem := m, cf := decide (W64 ≤ t) }
  | .adcI n d => let t := x.reg d + n + bit x.cf; some { x.set d (t % W64) with cf := decide (W64 ≤ t) }
  | .adc s d => let t := x.reg d + x.reg s + bit x.cf; some { x.set d (t % W64) with cf := decide (W64 ≤ t) }
  | .nop => some x

def run : List Ins → Cpu → Option Cpu
  | [], x => some x
  | i :: is, x => step x i >>= run is

/-- `MULADDC_INIT`, bn_mul.h 163-165. -/
def asmInit : List Ins := [.xor .r8 .r8]

/-- `MULADDC_CORE`, bn_mul.h 167-177. -/
def asmCore : List Ins :=
  [.load .rsi .rax, .mul .rbx, .addI 8 .rsi, .add .rcx .rax, .mov .r8 .rcx, .adcI 0 .rdx, .nop, .addM .rax .rdi, .adc .rdx .rcx, .addI 8 .rdi]

/-- The variables of `mpi_mul_hlp` that the macros change: `c`, `s`, `d`, and the memory. -/
structure St where
  c : Nat
  s : Nat
  d : Nat
  mem : Mem

/-- One `asm` statement with `n` times `MULADDC_CORE`; the operands as `MULADDC_STOP` binds them (bn_mul.h 179-183): `c`, `d`, `s` in `rcx`, `rdi`,
`rsi`, `b` in `rbx`. `junk` is in the other registers. -/
def asmBlock (junk : Reg → Nat) (b n : Nat) (k : St) : Option St :=
  let reg : Reg → Nat
    | .rcx => k.c
    | .rdi => k.d
    | .rsi => k.s
    | .rbx => b
    | r => junk r
  (run (asmInit ++ (List.replicate n asmCore).flatten) ⟨reg, false, k.mem⟩).map fun x => ⟨x.reg .rcx, x.reg .rsi, x.reg .rdi, x.mem⟩

/-! ## C -/

def iter {σ : Type} (f : σ → Option σ) : Nat → σ → Option σ
  | 0, x => some x
  | n + 1, x => f x >>= iter f n

/-- `x < y` as an integer. -/
def less (x y : Nat) : Nat := if x < y then 1 else 0

/-- `MULADDC_CORE` with double-width integers, bn_mul.h 846-852. -/
def udblCore (b : Nat) (k : St) : Option St := do
  let r := (← k.mem k.s) * b
  let s := (k.s + 8) % W64
  let r0 := r % W64
  let r1 := r / W64
  let r0 := (r0 + k.c) % W64
  let r1 := (r1 + less r0 k.c) % W64
  let r0 := (r0 + (← k.mem k.d)) % W64
  let r1 := (r1 + less r0 (← k.mem k.d)) % W64
  let m ← store k.mem k.d r0
  pure ⟨r1, s, (k.d + 8) % W64, m⟩

def udblBlock (b n : Nat) (k : St) : Option St := iter (udblCore b) n k

/-- `MULADDC_CORE` with single-width integers, bn_mul.h 867-879; `b0`, `b1` from `MULADDC_INIT` (860-865). `biH` is 32. -/
def halfCore (b0 b1 : Nat) (k : St) : Option St := do
  let v ← k.mem k.s
  let s0 := (v <<< 32 % W64) >>> 32
  let s1 := v >>> 32
  let s := (k.s + 8) % W64
  let rx := s0 * b1 % W64
  let r0 := s0 * b0 % W64
  let ry := s1 * b0 % W64
  let r1 := s1 * b1 % W64
  let r1 := (r1 + rx >>> 32) % W64
  let r1 := (r1 + ry >>> 32) % W64
  let rx := rx <<< 32 % W64
  let ry := ry <<< 32 % W64
  let r0 := (r0 + rx) % W64
  let r1 := (r1 + less r0 rx) % W64
  let r0 := (r0 + ry) % W64
  let r1 := (r1 + less r0 ry) % W64
  let r0 := (r0 + k.c) % W64
  let r1 := (r1 + less r0 k.c) % W64
  let r0 := (r0 + (← k.mem k.d)) % W64
  let r1 := (r1 + less r0 (← k.mem k.d)) % W64
  let m ← store k.mem k.d r0
  pure ⟨r1, s, (k.d + 8) % W64, m⟩

def halfBlock (b n : Nat) (k : St) : Option St := iter (halfCore ((b <<< 32 % W64) >>> 32) (b >>> 32)) n k

/-! ## `mpi_mul_hlp` -/

/-- `for( ; i >= n; i -= n ) block`, `n` > 0: the remaining `i` and the state. -/
def loopBy (block : St → Option St) (n : Nat) (i : Nat) (k : St) : Option (Nat × St) :=
  if h : n ≤ i ∧ 0 < n then block k >>= fun k => loopBy block n (i - n) k else some (i, k)
termination_by i
decreasing_by omega

/-- The loop at the end, bignum.c 1103-1106; at most `fuel` words (more is `none`). -/
def finish : Nat → St → Option St
  | 0, _ => none
  | fuel + 1, k => do
    let x ← k.mem k.d
    let y := (x + k.c) % W64
    let m ← store k.mem k.d y
    let c := less y k.c
    let k := ⟨c, k.s, (k.d + 8) % W64, m⟩
    if c ≠ 0 then finish fuel k else pure k

/-- `mpi_mul_hlp(i, s, d, b)`, bignum.c 1046-1108 without `MULADDC_HUIT`, for a version `block b n` of `n` times `MULADDC_CORE` between
`MULADDC_INIT` and `MULADDC_STOP`. -/
def mulHlp (block : Nat → Nat → St → Option St) (fuel : Nat) (i s d b : Nat) (m : Mem) : Option Mem := do
  let r ← loopBy (block b 16) 16 i ⟨0, s, d, m⟩
  let r ← loopBy (block b 8) 8 r.1 r.2
  let r ← loopBy (block b 1) 1 r.1 r.2
  let k ← finish fuel r.2
  pure k.mem

end Verif.Bignum.Kernel
