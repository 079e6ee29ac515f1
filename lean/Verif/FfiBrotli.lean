import Verif.Ffi
import Verif.Hybrid

/-!
# The C interface with brotli inside

By default, and with the selections 1 and 2, the compressor behind the C interface is the one of
`/repo/src/brotli_ir_gen.rs` (`Verif.Hybrid`).  `/repo/src/ffi/compressor.rs:179-208, 212-258`.
-/

namespace Divans.Ffi
open Divans.Hybrid (Brotli Hy)

/-- The compressor `FFIHybridBrotliFactory::new` makes, and its `encode` and `flush`.  `boot`: brotli's encoder with
the parameters the settings give it.  `/repo/src/brotli_ir_gen.rs:344-446`, `/repo/src/ffi/compressor.rs:179-208,
223-225, 246-248`. -/
def withBrotli {σ : Type} (b : Brotli σ) (boot : Options → σ) (dw : Nat → Nat → Nat → List UInt8) (fuel : Nat) : Other where
  S := Codec.Opts × Hy σ
  start o := (codecOpts o).map fun co => (co, Hy.new o.window (boot o))
  encode s inp _ := (s.2.encode b s.1 dw fuel inp).map fun z => ((s.1, z.1), z.2.1, [], z.2.2)
  flush s room := (s.2.flush b s.1 dw fuel room).map fun z => ((s.1, z.1), z.2.1, z.2.2)

end Divans.Ffi
