import Verif.Model.Caching

/-!
# Model of `clear_cache`, dolo/misc/caching.py 88-98

The files of `.cache` are those of `cachedondisk` (`DiskCache`): `{name}.{hash}.pickle`.  `os.system` hands a command line to
the shell.  Of the shell, what is modelled is the expansion of a pattern with `*` and `?` for names made of letters, digits
and underscores, and the two redirections contained in the name `<lambda>`.
-/

namespace Dolo

/-- Lines 64 and 71: the name of a file in `.cache`. -/
def cacheFile (k : String × ℤ) : List Char :=
  k.1.toList ++ '.' :: ((toString k.2).toList ++ ".pickle".toList)

/-- The shell's patterns: `*` stands for any characters, `?` for one. -/
def globMatch : List Char → List Char → Bool
  | [], s => s.isEmpty
  | p :: ps, s =>
    if p = '*' then s.tails.any fun t => globMatch ps t
    else (s.head?.any fun c => p = '?' || p = c) && globMatch ps s.tail

/-- A pattern in a directory: files whose names begin with a period are only found if the pattern begins with one. -/
def globFile (p s : List Char) : Bool := globMatch p s && (s.head? != some '.' || p.head? == some '.')

/-- caching.py 88-98 `clear_cache`.  The directory is `none` if it does not exist.  `rm -rf` removes the files that match
(line 94 and 96; nothing happens if there are none).  An empty name is false (line 93).  The name of an anonymous function
makes the command `rm -rf .cache/<lambda>.*.pickle`: the directory is removed, with input from a file `lambda` and output to a
file `.*.pickle`; if there is no file `lambda`, the shell does not run the command. -/
def clearCache (lambdaFile : Bool) (dir : Option DiskCache) (function_name : Option String) : Option DiskCache :=
  match function_name with
  | none => dir.map fun d => d.filter fun f => !globFile "*.pickle".toList (cacheFile f.1)
  | some name =>
    if name = "" then dir.map fun d => d.filter fun f => !globFile "*.pickle".toList (cacheFile f.1)
    else if name = "<lambda>" then (if lambdaFile then none else dir)
    else dir.map fun d => d.filter fun f => !globFile (name.toList ++ ".*.pickle".toList) (cacheFile f.1)

/-- caching.py 57-77 `cachedondisk.__call__` when `.cache` may be missing: it is only created when a function is decorated
(51-52), so that opening a file for writing raises `FileNotFoundError` (line 71). -/
def diskCallDir {R : Type} (H : Hasher) (P : Pickle R) (fname : String) (func : Call → Except Err (Option R))
    (dir : Option DiskCache) (c : Call) : Except Err (Option R) × Option DiskCache :=
  match dir with
  | some d => ((diskCall H P fname func d c).1, some (diskCall H P fname func d c).2)
  | none =>
    match callHash H c with
    | .error e => (.error e, none)
    | .ok _ =>
      match func c with
      | .error e => (.error e, none)
      | .ok none => (.ok none, none)
      | .ok (some _) => (.error (.exception "FileNotFoundError"), none)

end Dolo
