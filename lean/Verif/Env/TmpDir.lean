import Verif.Codec

/-!
# Model of temporary directories (`enclave/fs/fs.cc`)

Left out: the handle of `fts_open` is not closed (enclave/fs/fs.cc:59-84), which loses memory each time. Other processes do not change the directory
while it is removed, and no other file system is mounted below it (`FTS_XDEV`).
-/

namespace Svr.TmpDir

/-- A path, as names from the root on. -/
abbrev Path := List Bytes

/-- What a name stands for: `other` is what `fts_read` reports as neither `FTS_D` nor `FTS_F`, such as symbolic links, sockets, and directories that cannot
be read. -/
inductive Kind
  | dir | file | other
deriving DecidableEq

/-- The names in a directory in the order in which `fts_read` comes to them; `below` are those of a directory. -/
inductive Forest
  | nil
  | node (name : Bytes) (kind : Kind) (below next : Forest)

/-- The file system. -/
abbrev Fs := List (Path × Kind)

/-- What is in directory `p`, and below it. -/
def entries (p : Path) : Forest → Fs
  | .nil => []
  | .node n .dir b x => (p ++ [n], .dir) :: (entries (p ++ [n]) b ++ entries p x)
  | .node n k _ x => (p ++ [n], k) :: entries p x

/-- `fts_info`. -/
inductive Info
  | d | dp | f | other
deriving DecidableEq

/-- What `fts_read` returns: directories before and after what is in them. -/
def visits (p : Path) : Forest → List (Info × Path)
  | .nil => []
  | .node n .dir b x => (.d, p ++ [n]) :: (visits (p ++ [n]) b ++ (.dp, p ++ [n]) :: visits p x)
  | .node n .file _ x => (.f, p ++ [n]) :: visits p x
  | .node n .other _ x => (.other, p ++ [n]) :: visits p x

/-- `remove`: a directory must be empty. It may fail for other reasons (`fails`). -/
def remove (fails : Path → Bool) (fs : Fs) (q : Path) : Fs :=
  if fails q ∨ ∃ e ∈ fs, q <+: e.1 ∧ q ≠ e.1 then fs else fs.filter fun e => e.1 ≠ q

/-- The body of the loop (enclave/fs/fs.cc:70-82). -/
def visit (fails : Path → Bool) (fs : Fs) : Info × Path → Fs
  | (.d, _) => fs
  | (.dp, q) => remove fails fs q
  | (.f, q) => remove fails fs q
  | (.other, _) => fs

/-- `"/tmp"`. -/
def tmp : Path := [[116, 109, 112]]

/-- `"svr."`. -/
def pre : Bytes := [115, 118, 114, 46]

inductive Err
  | already | random | mkdir
deriving DecidableEq

/-- `TmpDir::Init` (enclave/fs/fs.cc:41-58): `name` is `name_`, or nothing if that is empty; `random` is what `RandomBytes` gives; `mkdir` fails if there
is something of that name, and may fail for other reasons (`cannot`). Returns the file system, `name_` and the error. -/
def init (fs : Fs) (name : Option Bytes) (random : Option Bytes) (cannot : Bool) : Out (Fs × Option Bytes × Option Err) :=
  match name with
  | some n => .ok (fs, some n, some .already)
  | none => match random with
    | none => .ok (fs, none, some .random)
    | some bytes => do
      let h ← Codec.bytesToHex bytes
      if cannot ∨ ∃ e ∈ fs, e.1 = tmp ++ [pre ++ h] then .ok (fs, none, some .mkdir)
      else .ok (fs ++ [(tmp ++ [pre ++ h], .dir)], some (pre ++ h), none)

/-- `TmpDir::~TmpDir` (enclave/fs/fs.cc:60-84): `content` is what is in the directory; `opened` is whether `fts_open` succeeds. -/
def destroy (opened : Bool) (fails : Path → Bool) (fs : Fs) (name : Option Bytes) (content : Forest) : Fs :=
  match name with
  | none => fs
  | some n => if opened then (visits tmp (.node n .dir content .nil)).foldl (visit fails) fs else fs

/-- The move constructor (enclave/fs/fs.h:20-23): the new `name_` and the old one. -/
def move (name : Option Bytes) : Option Bytes × Option Bytes := (name, none)

end Svr.TmpDir
