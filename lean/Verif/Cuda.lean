import Verif.Api

/-!
# Matrix multiplication on the device

`cuda-binding/src/lib.rs`, `ebi/src/decoder/chunk_reader.rs:261-280`, `ebi/src/api/decoder.rs:658-724` (feature `cuda`).
The device itself is a parameter.
-/

namespace Ebi.Cuda

/-- `n as i32` of a `usize`. -/
def asI32 (n : Nat) : Int := (BitVec.ofNat 32 n).toInt

/-- `(a * b) as usize` of two `i32` (wrapping product of a release build, then sign extension). -/
def mulUsize (a b : Int) : Nat := (BitVec.ofInt 64 (BitVec.ofInt 32 (a * b)).toInt).toNat

/-- `GemmConfig<f64>` of cudarc. No transposition, `alpha` 1 and `beta` 0 in both constructors of the binding,
so these fields are left out. -/
structure GemmConfig where
  m : Int
  n : Int
  k : Int
  lda : Int
  ldb : Int
  ldc : Int
deriving DecidableEq

/-- `config_matmul_column_major` (cuda-binding/src/lib.rs:150-163). -/
def columnMajor (m n k : Nat) : GemmConfig := ⟨asI32 m, asI32 n, asI32 k, asI32 m, asI32 k, asI32 m⟩

/-- `config_matmul_row_major` (168-181). -/
def rowMajor (m n k : Nat) : GemmConfig := ⟨asI32 n, asI32 m, asI32 k, asI32 n, asI32 k, asI32 n⟩

/-- Device memory; `none` is a cell nothing was written to. -/
abbrev Buffer := List (Option B64)

/-- `blas.gemm` (cublasDgemm) on the three buffers: the new contents of the third. -/
structure Device where
  gemm : GemmConfig → Buffer → Buffer → Buffer → Res Buffer

/-- `Context` (32-38): the buffers kept between calls. -/
structure Context where
  a : Option Buffer
  b : Option Buffer
  c : Option Buffer

/-- `new_at` (41-53); that there is no device is not modelled. -/
def Context.new : Context := ⟨none, none, none⟩

/-- The first two `match`es (94-109): a buffer that is long enough is overwritten from its start, otherwise
there is a new one. Copies do not fail. -/
def upload (buf : Option Buffer) (xs : List B64) : Buffer :=
  match buf with
  | some s => if xs.length ≤ s.length then xs.map some ++ s.drop xs.length else xs.map some
  | none => xs.map some

/-- The third (110-121), `beta` being zero: a new buffer is not written to. -/
def uploadResult (buf : Option Buffer) (xs : List B64) : Buffer :=
  match buf with
  | some s => if xs.length ≤ s.length then xs.map some ++ s.drop xs.length else List.replicate xs.length none
  | none => List.replicate xs.length none

/-- `memcpy_dtoh(c_buf, c)` (137): cudarc asserts that the destination is as long as the source. What the source
does not reach stays. -/
def download (buf : Buffer) (c : List B64) : Res Buffer :=
  if c.length < buf.length then .panic else .ok (buf ++ (c.drop buf.length).map some)

/-- The size checks (66-93). -/
def sizesFit (cfg : GemmConfig) (a b c : Nat) : Bool :=
  !(cfg.m ≤ 0 || cfg.n ≤ 0 || cfg.k ≤ 0) && a == mulUsize cfg.m cfg.k && b == mulUsize cfg.k cfg.n &&
    c == mulUsize cfg.m cfg.n

/-- `Context::gemm` (59-140): the new contents of `c`, where `none` is whatever was in the memory. -/
def Context.gemm (dev : Device) (ctx : Context) (a b c : List B64) (cfg : GemmConfig) : Res (Buffer × Context) :=
  if sizesFit cfg a.length b.length c.length then do
    let aBuf := upload ctx.a a
    let bBuf := upload ctx.b b
    let cBuf ← dev.gemm cfg aBuf bBuf (uploadResult ctx.c c)
    let out ← download cBuf c
    .ok (out, ⟨some aBuf, some bBuf, some cBuf⟩)
  else .err

/-- `decompress` of the reader in the handle. -/
def decompress (E : Env) (h : Handle) : Res (List B64 × Handle) :=
  (AnyReader.decompress E h.reader).map fun p => (p.1, { h with reader := p.2 })

/-- `GeneralChunkReader::gemm` (chunk_reader.rs:262-280) with `swap_a_b`: the matrix of `size` records at `offset`
is the second operand. The slice panics beyond the chunk. -/
def chunkGemm (E : Env) (dev : Device) (ctx : Context) (h : Handle) (offset size : Nat) (b c : List B64)
    (cfg : GemmConfig) : Res (Buffer × Context × Handle) := do
  let (vs, h) ← decompress E h
  if vs.length < offset + size then .panic
  else do
    let (out, ctx) ← ctx.gemm dev b ((vs.drop offset).take size) c cfg
    .ok (out, ctx, h)

/-- The loop over the results (api/decoder.rs:701-717), which are zeros before (688). -/
def matmulLoop (E : Env) (d : Decoder) (dev : Device) (target : List B64) (size rsize : Nat) (cfg : GemmConfig) :
    Nat → Nat → Nat → Handle → Context → Res Buffer
  | 0, _, _, _, _ => .ok []
  | b + 1, chunk, offset, h, ctx => do
    let (chunk, offset, h) ←
      if h.records ≤ offset then do
        let h ← d.chunkReader E (chunk + 1)
        .ok (chunk + 1, 0, h)
      else .ok (chunk, offset, h)
    let (out, ctx, h) ← chunkGemm E dev ctx h offset size target (List.replicate rsize 0#64) cfg
    let rest ← matmulLoop E d dev target size rsize cfg b chunk (offset + size) h ctx
    .ok (out ++ rest)

/-- `Decoder::matmul_cuda` (659-724). As in `Decoder.matmul`, products of `usize` wrap, a remainder by zero panics, and
so does a capacity above `isize::MAX` bytes; `chunks_exact_mut(0)` panics too. -/
def matmul (E : Env) (dev : Device) (d : Decoder) (target : List B64) (targetShape dataShape : Nat × Nat) : Res Buffer :=
  let (tr, tc) := targetShape
  let (dr, dc) := dataShape
  let size := dr * dc % 2 ^ 64
  if size = 0 then .panic
  else if dc ≠ tr ∨ d.info.footer.records % size ≠ 0 ∨ tr * tc % 2 ^ 64 ≠ target.length then .err
  else
    let rsize := dr * tc % 2 ^ 64
    let batch := d.info.footer.records / size
    let total := batch * rsize % 2 ^ 64
    if 2 ^ 63 ≤ 8 * total then .panic
    else do
      let h ← d.chunkReader E 0
      if rsize = 0 then .panic
      else matmulLoop E d dev target size rsize (rowMajor dr tc dc) (total / rsize) 0 0 h Context.new

end Ebi.Cuda
