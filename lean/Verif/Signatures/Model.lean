/-
The signatures of signatures/src/zk_friendly: a proof of knowledge of a private key whose hash is the public key.

The proof system is not modelled: a signature with given public inputs exists exactly if the circuit has satisfying
values of its private targets (`PoseidonSat`).  The hash function is a parameter.
-/
import Verif.Circuits.Field

set_option autoImplicit false

namespace Mozak.Signatures

open Mozak.Circuits

/-- The byte arrays of `PublicKey`, `PrivateKey` and `Message` (signatures/src/zk_friendly/sig.rs:14-35). -/
abbrev Byte := BitVec 8

/-- signatures/src/zk_friendly/sig.rs:43-45 `get_limbs_field` and 82-84: each byte as a field element. -/
def limbs (bs : List Byte) : List F := bs.map fun b => ((b.toNat : Nat) : F)

/-- `range_check(target, 8)` of plonky2: the canonical value is below 2^8. -/
def RangeCheck8 (x : F) : Prop := x.val < 2 ^ 8

/-- signatures/src/zk_friendly/utils.rs:16-20: the limbs are folded from the last to the first with base 2^8. -/
def packLE (l : List F) : F := l.reverse.foldl (fun acc x => acc * 256 + x) 0

/-- signatures/src/zk_friendly/utils.rs:55-57: the limbs are folded from the first to the last. -/
def packBE (l : List F) : F := l.foldl (fun acc x => acc * 256 + x) 0

/-- `limbs[n * i..n * i + n]`. -/
def part (n i : Nat) (l : List F) : List F := (l.drop (n * i)).take n

/-- signatures/src/zk_friendly/utils.rs:9-24 `get_hashout`: the four elements of a hash from 32 limbs. -/
def getHashout (l : List F) : List F := (List.range 4).map fun i => packLE (part 8 i l)

/-- signatures/src/zk_friendly/poseidon.rs:30-46 `hash_circuit` and signatures/src/zk_friendly/sig.rs:73-97 `sign`: the
constraints on the targets of the private key, the public key and the message.  `H` is `hash_or_noop` of `PoseidonHash`
on the 32 limbs. -/
structure PoseidonSat (H : List F → List F) (sk pk msg : List F) : Prop where
  /-- the arrays of targets -/
  skLen : sk.length = 32
  pkLen : pk.length = 32
  msgLen : msg.length = 32
  /-- `connect_hashes` -/
  hash : H sk = getHashout pk
  /-- the range checks -/
  ranges : ∀ x ∈ msg ++ pk ++ sk, RangeCheck8 x

/-- A signature of `msg` under `pk` exists: the public inputs are the limbs of the public key and of the message
(signatures/src/zk_friendly/sig.rs:94-95). -/
def Signs (H : List F → List F) (publicInputs : List F) : Prop :=
  ∃ sk pk msg, PoseidonSat H sk pk msg ∧ publicInputs = pk ++ msg

/-- The eight bytes of a 64-bit number, least significant first. -/
def leBytes : Nat → Nat → List Byte
  | 0, _ => []
  | n + 1, x => BitVec.ofNat 8 x :: leBytes n (x / 256)

/-- `to_bytes` of a `HashOut` (signatures/src/zk_friendly/sig.rs:22-26): the bytes of the canonical values. -/
def hashBytes (h : List F) : List Byte := h.flatMap fun x => leBytes 8 x.val

/-- signatures/src/zk_friendly/poseidon.rs:48-50 `hash_private_key`, and the public key made from it. -/
def publicKey (H : List F → List F) (sk : List Byte) : List Byte := hashBytes (H (limbs sk))

/-- signatures/src/zk_friendly/utils.rs:26-43 `biguint_le_u32_target_to_le_u8_target` together with the range checks of
`sign`: 32 new targets for eight 32-bit limbs. -/
structure BytesLE (u32s : List F) (l : List F) : Prop where
  len : l.length = 32
  connect : u32s = (List.range 8).map fun i => packLE (part 4 i l)
  ranges : ∀ x ∈ l, RangeCheck8 x

/-- signatures/src/zk_friendly/utils.rs:45-61 `biguint_be_u32_target_to_le_u8_target`, likewise. -/
structure BytesBE (u32s : List F) (l : List F) : Prop where
  len : l.length = 32
  connect : u32s = (List.range 8).map fun i => packBE (part 4 i l)
  ranges : ∀ x ∈ l, RangeCheck8 x

/-! ### Specification -/

/-- The number with the given bytes, least significant first. -/
def leNat : List Byte → Nat
  | [] => 0
  | b :: bs => b.toNat + 256 * leNat bs

/-- The 64-bit number number `i` of a byte array. -/
def word64 (i : Nat) (bs : List Byte) : Nat := leNat ((bs.drop (8 * i)).take 8)

/-! ### The public keys of the SHA-256 and Keccak-256 signers -/

/-- signatures/src/zk_friendly/sha256.rs:67-72 and signatures/src/zk_friendly/keccak256.rs:66-71 `hash_private_key`, with
`From<HashOut>` of `PublicKey` (signatures/src/zk_friendly/sig.rs:22-26): the 32 bytes of the digest go through four field
elements (`HashOut::from_bytes` of plonky2; its debug assertion that each word is canonical is not modelled) and back. -/
def digestKey (digest : List Byte) : List Byte :=
  hashBytes ((List.range 4).map fun i => ((word64 i digest : Nat) : F))

/-- signatures/src/zk_friendly/sha256.rs:32-65 `hash_circuit` with `sign` (signatures/src/zk_friendly/sig.rs:73-97), as far
as the public key goes: the limbs of the public key are the bytes of the eight big-endian 32-bit words of the digest, which
plonky2_crypto's gadget computes. -/
def ShaKey (digest : List Byte) (pk : List F) : Prop :=
  BytesBE ((List.range 8).map fun i => ((leNat ((digest.drop (4 * i)).take 4).reverse : Nat) : F)) pk

/-- signatures/src/zk_friendly/keccak256.rs:31-64, likewise with little-endian words. -/
def KeccakKey (digest : List Byte) (pk : List F) : Prop :=
  BytesLE ((List.range 8).map fun i => ((leNat ((digest.drop (4 * i)).take 4) : Nat) : F)) pk

end Mozak.Signatures
