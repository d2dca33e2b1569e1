/-!
# File systems

`FSspecFileSystem` (/repo/src/fairseq2/file_system.py:125-342), `FileSystemRegistry` (345-414), `_register_filesystems` (417-461)
and `GlobalFileSystem` (467-547): which object of which file system a path means.

Simplified: a protocol is registered by its scheme, and its prefix is the scheme and `://`; a path is a string, and `Path` turns
several slashes into one (other changes of `Path`, such as at the end, do not occur in normal paths). What the file systems do with
the strings that they get is not modelled.
-/

namespace Fs2.Files

abbrev Str := List Char

/-- A file system: of a protocol, or the local one with the empty prefix (350). Both are of the class `FSspecFileSystem`. -/
abbrev FS := Option Str

/-- `_prefix`. -/
def prefixOf (scheme : Str) : Str := scheme ++ [':', '/', '/']

/-- `str(Path(s))`. -/
def pathStr : Str → Str
  | '/' :: '/' :: t => pathStr ('/' :: t)
  | c :: t => c :: pathStr t
  | [] => []

/-- `_normalize_uri_path` (140-153). -/
def normalize (fs : FS) (s : Str) : Str :=
  match fs with
  | none => s
  | some scheme =>
    if (scheme ++ [':', '/']).isPrefixOf s && !(prefixOf scheme).isPrefixOf s then
      prefixOf scheme ++ s.drop (scheme.length + 2)
    else s

/-- `get_short_uri` (155-176) of one path; `none` is `ValueError`. -/
def shortUri (fs : FS) (s : Str) : Option Str :=
  let s := normalize fs s
  match fs with
  | none => some s
  | some scheme =>
    if (prefixOf scheme).isPrefixOf s then some ((s.drop (prefixOf scheme).length).dropWhile (· = '/'))
    else none

/-- `get_long_uri` (178-199) of one path. -/
def longUri (fs : FS) (s : Str) : Str :=
  let s := normalize fs s
  match fs with
  | none => s
  | some scheme => if (prefixOf scheme).isPrefixOf s then s else prefixOf scheme ++ s

/-- The check of a registered protocol (439-447). -/
def matchesProtocol (scheme s : Str) : Bool :=
  (prefixOf scheme).isPrefixOf s || ((scheme ++ [':', '/']).isPrefixOf s && !(prefixOf scheme).isPrefixOf s)

/-- `resolve_filesystem` (371-414) of one path, with the protocols in the order of their registration. -/
def resolve (registered : List Str) (s : Str) : FS := registered.find? (matchesProtocol · s)

/-- `resolve_filesystem` of a sequence of paths: the classes of the file systems are compared, and all are
`FSspecFileSystem`. The result for no paths is the native local file system, which is the same as the local one. -/
def resolveAll (registered : List Str) : List Str → Option FS
  | [] => some none
  | p :: ps =>
    let kind : FS → String := fun _ => "FSspecFileSystem"
    if ps.all fun q => kind (resolve registered q) = kind (resolve registered p) then some (resolve registered p) else none

/-- The object that `GlobalFileSystem` opens for a path (474-492). -/
def opened (registered : List Str) (s : Str) : Option (FS × Str) :=
  (shortUri (resolve registered s) s).map fun o => (resolve registered s, o)

/-- The paths that `glob` gives for objects (297-299). -/
def globbed (fs : FS) (objects : List Str) : List Str := objects.map fun o => pathStr (longUri fs o)

/-- What `walk_directory` gives for a directory and the names in it (302-308). -/
def walked (fs : FS) (dir : Str) (names : List Str) : Str × List Str := (longUri fs dir, names.map (longUri fs))

/-- `Path(dir).joinpath(name)` of a name that does not begin with a slash, as the provider of metadata makes it
(/repo/src/fairseq2/assets/metadata_provider.py:138-144). -/
def joined (dir name : Str) : Str := pathStr (dir ++ '/' :: name)

end Fs2.Files
