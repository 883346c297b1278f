import Mathlib.Data.List.Basic
import Verif.Model.Err

/-!
# Model of `dolo/misc/groot.py`
-/

namespace Dolo

/-- An absolute directory, innermost component first: `/a/b` is `["b", "a"]`, `/` is `[]`. -/
abbrev Dir := List String

/-- What `groot` asks the operating system: the listing of a directory, and the directory reached
by `os.chdir(os.path.join(d, path))` for the `path` given by the user, or the exception. -/
structure FileSys where
  listdir : Dir → Except Err (List String)
  enter : Dir → Except Err Dir

/-- groot.py 5-9 `check_filelist`. -/
def checkFilelist (l : List String) : Bool :=
  decide ("README.md" ∈ l) || decide ("README" ∈ l)

/-- The result: the exception if any, and the working directory afterwards. -/
abbrev GrootRes := Except Err Unit × Dir

/-- groot.py 20-34: the loop, with at most `fuel` turns (`none` if it did not end).  `os.chdir` to
the parent directory of `/` stays in `/`.  `cwd` is the working directory, which `cwd` and `cwd0`
of the code agree with at the head of the loop; `init` is `cwd_init`. -/
def grootLoop (fs : FileSys) (init : Dir) : ℕ → Dir → Option GrootRes
  | 0, _ => none
  | fuel + 1, cwd =>
    match fs.listdir cwd with
    | .error e => some (.error e, cwd)
    | .ok l =>
      if checkFilelist l then
        match fs.enter cwd with
        | .error e => some (.error e, cwd)
        | .ok d => some (.ok (), d)
      else
        let up := cwd.tail
        if up = cwd then some (.error (.exception "Root directory not found."), init)
        else grootLoop fs init fuel up

/-- groot.py 2-34 `groot(path)` called in `cwd`. -/
def groot (fs : FileSys) (fuel : ℕ) (cwd : Dir) : Option GrootRes := grootLoop fs cwd fuel cwd

end Dolo
