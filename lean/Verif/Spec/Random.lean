import Verif.Model.Random
/-! The words that the generators give. -/
namespace Tachyon.Random
open Tachyon.Buffer

/-- The key of a seed: its eight words. -/
def keyOf (seed : List Byte) : List Word := (List.range 8).map fun i => wordOf ((seed.drop (4 * i)).take 4)

/-- The input of ChaCha20 for a block: the constants, the key, the number of the block and a nonce of zeros. -/
def blockInput (key : List Word) (b : ℕ) : List Word :=
  [0x61707865, 0x3320646E, 0x79622D32, 0x6B206574] ++ key ++ [BitVec.ofNat 32 b, BitVec.ofNat 32 (b / 2 ^ 32), 0, 0]

/-- Word `i` of the stream of a key. -/
def streamWord (core : List Word → List Byte) (key : List Word) (i : ℕ) : Word :=
  wordOf (((core (blockInput key (i / 16))).drop (4 * (i % 16))).take 4)

/-- The number of some words, lowest first. -/
def valueOf (ws : List Word) : ℕ := ws.foldr (fun w v => w.toNat + 2 ^ 32 * v) 0

/-- A generator that gives the words of a list. -/
def takeWord : List Word → Option (Word × List Word)
  | [] => none
  | w :: ws => some (w, ws)

end Tachyon.Random
