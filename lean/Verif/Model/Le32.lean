import Verif.Model.Py
import Mathlib.Data.List.Basic

/-! Model of src/utils/parallel_map.py:28-33: the numbers of the workers as bytes in the return pipe. -/
namespace Cgpm
namespace PMap

/-- A byte. -/
abbrev Byte := Fin 256

/-- src/utils/parallel_map.py:28-29 `le32enc`, `struct.pack('<I', n)`; `struct.error` is written
ValueError. -/
def le32enc (n : Nat) : Except Exn (List Byte) :=
  if n < 256 ^ 4 then
    .ok [Fin.ofNat 256 n, Fin.ofNat 256 (n / 256), Fin.ofNat 256 (n / 256 ^ 2), Fin.ofNat 256 (n / 256 ^ 3)]
  else .error .valueError

/-- src/utils/parallel_map.py:31-32 `le32dec`, `struct.unpack('<I', s)[0]`. -/
def le32dec : List Byte → Except Exn Nat
  | [a, b, c, d] => .ok (a + 256 * b + 256 ^ 2 * c + 256 ^ 3 * d)
  | _ => .error .valueError

/-- `os.write(retq_wr, le32enc(childno))`, L53: the bytes of a pipe after it.  Four bytes are written
at once. -/
def pipeWrite (pipe : List Byte) (n : Nat) : Except Exn (List Byte) :=
  (le32enc n).map fun b => pipe ++ b

/-- `le32dec(os.read(retq_rd, 4))`, L92 and 98: the number, and the bytes of the pipe after it. -/
def pipeRead (pipe : List Byte) : Except Exn (Nat × List Byte) :=
  (le32dec (pipe.take 4)).map fun n => (n, pipe.drop 4)

/-- The workers with the given numbers write, one after the other. -/
def pipeWrites : List Byte → List Nat → Except Exn (List Byte)
  | pipe, [] => .ok pipe
  | pipe, n :: ns =>
    match pipeWrite pipe n with
    | .error e => .error e
    | .ok pipe' => pipeWrites pipe' ns

/-- The parent reads `k` numbers. -/
def pipeReads : Nat → List Byte → Except Exn (List Nat × List Byte)
  | 0, pipe => .ok ([], pipe)
  | k + 1, pipe =>
    match pipeRead pipe with
    | .error e => .error e
    | .ok (n, pipe') => (pipeReads k pipe').map fun p => (n :: p.1, p.2)

end PMap
end Cgpm
