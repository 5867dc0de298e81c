# Formal model of jubako/arx in Lean 4 — design

Everything lives in `lean/Verif`. `lake build` in `lean/` checks every theorem with Lean's kernel.

## 1. Layers

| directory | content |
|---|---|
| `Verif/Base`  | bytes, byte order, UTF-8 validity, the `relative_path` crate operations used by arx, the LRU cache |
| `Verif/Model` | the model of the code in /repo, function by function, every definition citing file and lines |
| `Verif/Spec`  | small specifications that do not mention the model: the abstract archive (`PathMap`: path -> node), what one `add` means on it, path order, selection predicate, ... |
| `Verif/Proof` | helper lemmas and invariants |
| `Verif/Props` | the property theorems, with non-vacuity examples beside them |

### How Rust is rendered
* `&mut self` methods become functions returning the new state; `Result` stays data; **panics are an explicit error value** (`Err.panic ..`), so "never panics" is a statement, not an assumption.
* `u64`/`u32`/`u8` values are `Nat` with explicit `% 2^k` at every `as` cast in the source.
* strings and names are byte lists (`List UInt8`); `String::from_utf8` is an explicit validity check.
* `HashMap`s are association lists with unique keys; the `Arc<RwLock<DirCache>>` heap of directory caches is a map from directory id to association list.
* `walk::Walker` is a recursive function with a depth budget; theorems show the budget is never reached on archives made by the creator.
* threads (walker thread + channel in `FsAdder`, rayon tasks in `Extractor`) are small-step transition systems; theorems quantify over all interleavings.
* the host file system is an explicit model (directories, files with mtime, symlinks, path resolution following symlinks and `..`).

### What is external (trusted contract, not in /repo)
* **jubako**: an entry store written with sort keys `[Parent, Name]` is a permutation of the added entries that is sorted for the keys evaluated at the final positions (the store sorts, renumbers and repeats until sorted); stored integers and arrays read back unchanged; `Range::find` with an ordered comparator is a binary search returning an index relative to the range; `Index::get_entry` rejects ids outside the index; `get_bytes(add_content(c)) = c` when the pack is present; `CachedContentAdder` gives equal contents the same address; `BasicCreator` writes to a temporary file and only `finalize` moves it to the output path.
* **relative_path 1.9**, **clap 4.5** (the loop over the words of a command line, `Model/CmdLine`), **lru**, **walkdir**, **fuser**, **tar**, **zip**, **deranged**, std: modelled as their documented behaviour; each model definition says which.
* Not modelled: byte-level pack encoding, compression, hashing, texts of messages, progress bars, logging, daemonizing, memory exhaustion, Windows branches.

### Trusted base
* Lean 4.33.0's kernel. No axiom is added; no compiled evaluation (`native_decide`, `bv_decide`) is used. Every theorem of the manifest depends on a subset of `propext`, `Classical.choice`, `Quot.sound`; the list per theorem is in `AXIOMS.txt` (made by `tools/axioms.sh` from `#print axioms`).
* That the definitions in `Verif/Model` say what the cited lines do, and that the external contracts above hold.
* That the specifications in `Verif/Spec` say what the English says.

### What is modelled, file by file
| /repo | model | left out |
|---|---|---|
| libarx/src/create/entry_store_creator.rs, create/mod.rs, common/properties.rs (writing) | `Model/Creator`, `Model/Layout` | nothing but the jubako calls |
| libarx/src/create/fs_adder.rs | `Model/FsAdder` | large files (opened now, read when the cluster is written) are read in the same call: as the state of the source is arbitrary at every call, and this call looks at nothing else, its state is to be understood as the directories when the file is opened and the data when it is read; that jubako compares and stores the same bytes of such a file is assumed; log messages; what a walk (crate walkdir) yields is one list: of the source at one moment (`walkItems`; C34, C44, C77, ...), or an arbitrary list of paths and errors (C70) |
| libarx/src/create/creator.rs | `Conv`, `Adder` | progress |
| libarx/src/arx.rs, entry.rs, common/*.rs | `Model/Reader`, `Model/Container` (schema, properties by name, opening) | bytes of the container |
| libarx/src/walk.rs | `Model/Walk` | — |
| libarx/src/tools.rs | `Model/Extract`, `Model/HostFs` | progress callbacks; no other process changes the target during extraction; clock frozen; directory mtimes not updated; every system call may fail at any time (arbitrary fault schedule), every write may be short, interrupted or fail |
| libarx/src/tools.rs, beside other processes | `Model/ExtractCalls` | the same functions with arbitrary answers to every call; handles (open files) are identified by a number; directory handles and permissions are not modelled |
| libarx/src/arx_fs.rs | `Model/ArxFs`, `Model/Stats` | mount/unmount system calls, request parsing (fuser) |
| libarx/src/cmd_utils.rs | `Model/CmdUtils` | help texts |
| arx/src/create.rs, dump.rs, extract.rs, list.rs, light_path.rs, mount.rs, bin/mount_fuse_arx.rs, bin/auto_mount.rs | `Model/Create`, `Model/Cmd`, `Model/List`, `Model/Output` (buffered standard output of list), `Model/MountCmd`, `Model/Stats`, `Model/CmdLine` | progress, logging, crates daemonize and tempfile |
| arx/src/main.rs | `Model/Main`, `Model/CmdLine` | the logger's set-up, the texts of help, manual and completions |
| tar2arx/src/main.rs, zip2arx/src/main.rs | `Model/Convert`, `Model/ConvertMain` | readers of the crates tar and zip; options that only print |
| python/src/*.rs | `Model/Python` | pyo3 conversions; stream reads do not fail (failing reads: `Model/ContentRead`) |

## 2. Plan per property

(kept up to date; final status is in `MANIFEST.json`)

* C01–C04: `Model/Creator` (heap of caches + entry list) refines `Spec/PathMap.specAdd` over every history; invariant by induction on the history. C02 as a corollary. C03/C04 stated outright on `PathMap`.
* C05–C08: `Model/Layout` (keys, sort/renumber loop, written table). Canonical order = (depth, then component-wise byte order) of paths; every sort pass fixes one more depth; uniqueness by applying the convergence theorem to a fixed point. Child ranges from interval property of that order.
* C09–C12: `Model/Reader`, `Model/Walk`, `Model/List`: the visited list is *the* strictly increasing list of all paths of the `PathMap`. C12_iff (`Props/StableList`): induction over the walk; once names are missing from the current path they stay missing until the top-level directory is left, and the text is then strictly shorter than it should be.
* C13: `should_extract` equals a selection predicate on component lists; then induction over the walk.
* C14–C20, C47: `Model/HostFs`, `Model/Extract`; invariants over the walk; interleavings by commutation.
* C21–C30: `Model/ArxFs` as `step : State -> Request -> State x Reply`; refinement to a cache-less specification.
* C31: sub-tree view of `PathMap`.
* C32, C49: explicit panic values; exact characterisation of panicking inputs (both properties are false for the empty path, proved by witness).
* C33–C36: `Model/FsAdder` over an abstract source tree; channel interleavings.
* C37–C39: `Model/Python`.
* C40: explicit casts (rights is read back as u8: the full property is false).
* C41–C42: `Model/Convert`.
* C43, C44, C54: `Model/Create`; C45, C52: `Model/Cmd`; C46: `Model/CmdUtils`. C51: `Model/ArxFs`. C53: `Model/Python`. C55: composition of C14 and the adder (`Props/RoundTrip`). C56: the pack of `Model/FsAdder`/`Model/Convert` (`Props/Dedup`). C57: the readers of `Model/Arx`, `Model/Walk` on arbitrary tables (`Props/Hostile`); extraction by an invariant of the walk over every system call (`Proof/HostileExtract`).
* C58: `Model/Output`: every write to standard output may fail or be buffered; the listers with this output are related to the listers of `Model/List` by a simulation of walks.
* C59: a killed process is one whose calls all fail from some call on; `Proof/Shape` is an invariant of the target that every call keeps whatever fails; the leftovers are no obstacle for a run in mode overwrite.
* C60: `Proof/Parts`: every writer belongs to one visited file of the archive; what is in its file is a prefix of its content.
* C61, C62: `Model/ConvertMain`; cases of `main`; the acceptance conditions are those of C41, C42. C62: laws of `Path::with_extension`.
* C63: the filtered walk is the walk filtered by `all directories above are accepted`.
* C64: an invariant of the caches that holds for any table (`AnyInv`): what is cached is a row of the directory.
* C65: `mountCmd`, `mountFuse`, `autoMount` (Model/MountCmd) return the list of what is done and the result the caller sees; the answers of the system are quantified. By cases.
* C66: `Model/Container`: schema and rows by property name, written from the values of an entry, read by the names the reader spells; `C66_created_opens` shows that what is read is the `Archive` of `Model/Layout`, on which everything else is built; `C66_rows_fit`: each row has values of the kinds its schema declares.
* C67: the program is a function over FsState.step with arbitrary requests of others after each of its own; invariant: caches true, open counts = counts of others + own; the visited paths are the trace of the tree.
* C68: composition of C14 and C67.
* C69: `Model/ExtractCalls` (the extraction as calls with arbitrary answers), invariant over calls; `Beside` for interference; bridge to `Model/Extract` by a simulation of the two walks.
* C70: `Adder.Tried` records the attempts; the requests offered to the creator are compared with the answers of the calls (`Saw`), then carried through `SpecAdd`.
* C71: composes C44 (`CreateOpts.inputs_spec`) with C52/C56 (`ExtractOpts.run_source`, `CleanExtraction.ok`), showing that what the command archives is `Extractable`.
* C72: invariant over the sequence of runs: `Leftover` (C59) and exactly the selected part (`PartAt`), by `Extracted` and `Untouched`.
* C73: composition of C41/C42 (requests of the members), C61 (what is written) and C14 (`C14_reproduces`).
* C74: `Model/Main`: `main` gives SIGPIPE its default action, so a failing write to a pipe ends the process; same simulation of walks as C58.
* C75: the invariant of the extraction walk (`WInv`) also records which entries have been read; the other direction is the proof of C14.
* C76: composition of C67 (copying a mount), C11/C12 (list), C53 (Python) and C45 (dump): the listing of a map is unique, so all of them range over the same paths.
* C77: Adder.addAll_iff (an induction over the added paths with the invariant "the store holds exactly what was offered") gives an exact condition for a sequence of adds; the walk turns inputs into such a sequence (C34), the clashes inside of one tree are impossible, and run_ok peels off the other steps of the command.
* C78: in any environment the creator is only ever reached by adds, so C49 (an add panics exactly for nameless paths) lifts to the command; the walk yields plain names below an input. On quiet sources Adder.addAll_panics_iff and the order of the walk (an input comes first) give an iff.
* C79: compose C44 (what the archive holds of the source), AsSeen (C70: attributes and sizes are those lstat gave), C65 (what is mounted), C67 (the copy) and C76 (all readers).
* C80: each call of add walks its path (as in C77); attempts and what they saw as in C70 also for failing calls; success and crash through the generalised walk lemma (each input with its own recursion flag); readers as in C79.
* C81: composition of C41/C42, C61 with C65, C67, C76 through a lemma shared with C79 (`mounted_shows`).
* C82: the exact content of a created archive (`FirstInput`, `FirstPath`), by induction on the adds, with walks parents first; then uniqueness of the table for a map (`canon_unique`, `RangeIs.unique`).
* C83: both commands determine the same `FirstInput`/`FirstPath`; a list printed by find is a walk (`FindPrints.walked`); resolving a path in two steps (`Src.WF.resolve_twice`, independent of the number of links allowed).
* C84: from C14 (the whole) and C72 (the part): both are determined by the same map.
* C85: induction on the history.
* C86: the text of a listing is parsed back: lines split at newlines, numbers at spaces, links at the first arrow; each step is injective.
* C87: `PyHas` is the inductive set of entries a program can get; every step stays on a row of the table (`Shows`), whose index determines the path.
* C88: induction over the members gives the first member that panics; for its conversion the exact condition is proved, and for its addition C49_panics_iff with the entries made from the members before (`SpecRun.sources`).
* C89: an invariant of the extraction (`StaysBelow`): symbolic links at or below the output directory are only where links of the archive go, and everything else outside is as before. Paths are followed name by name (`leadsFrom`), also with `..`; that no path leads through a link is a condition on the tree (`TreeInside`), which is proved for what each tool makes.
* C90: infinite schedules (`Spec/Ends`); a finite prefix of one is a run of the model. The number of items not yet walked and received, and the number of bytes not yet written, get smaller again and again under a fair schedule; after the end nothing changes.
* C91: a separate notion of item (`Spec/SameItems`); each tool is proved to make an archive that holds exactly the items and the directories above them; two archives that hold the same items have the same rows.
* C92: paths, order, UTF-8, lossy text and decimal numbers are specified without the functions of the model (`Spec/Words`); each function is proved equal to its specification.
* C93: the exact content of what a Python program adds (`C80_exact`) and of what arx create adds (C44) determine the same map; equal maps give equal rows (C82).
* C94: the tables of arguments of the programs and clap's loop over the words; a line is decomposed into pieces by a separate grammar; reading is shown to invert it.
* C95: parses of the README's lines (by C94) composed with C71, C74, C77, C79, C45.
* C96: `C11` gives the text, `TextOf` its lines; extraction by C72/C52's selection, creation by C44/C77's file list.
* C97: the invariant of the runs (C72) makes the old extraction a plain target for the new one; then C16 and C75.
* C98: the iteration of C39 turned into the loop of the README by induction on the depth, against the listing of C11; get_entry and parent by C53 and C87; the source by C80.
* C99: the command lines are read by C94; C61 for the conversion; C41, C42 for the map; C74, C73, C81 for the readers.
* C100: the source of the second creation is specified by what a copy of the mount gets (C67); C82 (FirstInput) says what is archived of it; the listings follow from C11, C12.
* C101: the calls of SimpleCreator::new are modelled as a list (Model/Packing.lean); the events of the runs (C71, C74) say when they happen, C94 what the command line says.
* C102: invariants of the state of the mount, kept by every request, for any archive.
* C103: a reading is a function of the archive; that it needs few rows is stated as independence from all other rows, composed from single rows; the search by induction on its rounds.
* C104: runs with changing availability as an inductive relation, invariant as for C72; dump and mount by comparison of the steps for two contents.
* C105: C06 gives equal entry tables, C21 removes the caches; the cache-less answers about numbers from 2 up depend on the table only.
* C106: `Model/ContentRead` gives every call that reads a content an event (bytes, interrupted, failure); induction on the events. `extract` has failing reads in its own model (C20).
* C48: via the path model.
* C50: explicit overflow of `UNIX_EPOCH + Duration` (false for negative mtimes).

Properties that the code violates are recorded in section 3 with a proved counterexample and a `_partial` theorem.

* Theorems named `_exact` (Props/Exact, Exact2, Exact3, ConvertIff) give, for a property that is false in full, what the code does on the whole domain of the property: the counterexample and the `_partial` theorem are then two sides of one characterisation.

## 3. Findings (property false of the code)

Each is proved of the model (theorem in brackets) next to a `_partial` theorem for the remaining cases, unless it says "observed".

* **C02** an add whose `kind()` fails leaves the parent directories it created behind [`C02_counterexample`].
* **C10/C12** an entry named `.` (path `a/./b`, which the creator keeps) makes the walk context wrong after it: leaving the directory pops two names, so the rest of the stable listing shows wrong paths [`C10_counterexample`].
* **C17** archives with entries named `..` extract outside of the target [`C17_parent_counterexample`; `C17_escapes`, `C17_escapes_any`: whenever the archive has a file whose path leads out by `..`]; a link then a file below a directory of the same name as the link [`C17_link_counterexample`]; overwriting follows an existing symbolic link at the place of a file [`C17_overwrite_follows_link`].
* **C19** in overwrite mode an archive with both `x` and `./x` gives a result that depends on the schedule. `C19_schedule` (for every archive and mode, by a simulation between the two runs that gives each file opened once to one writer) shows that nothing else can depend on it.
* **C20** a missing content pack is only logged: `extract` reports success without the file.
* **C24** a `readdir` page with room for `.` only restarts for ever: the cookie of `.` is 0.
* **C25, C30** reading beyond the end of a mounted file panics (subtraction), as do modification times ≥ 2^63.
* **C31** `..` of a top-level directory of a `--root-dir` mount is not the mount root.
* **C32, C49, C53** the empty path panics in `get_entry` (`unreachable!()`), and paths without a last name (``, `.`, `..`, `/`) panic in `add_entry`; so tar2arx and zip2arx crash on a `./` member, and tar2arx on absolute members; Python `get_entry("")` crashes.
* **C34** an error during the walk (unreadable directory) panics the walking thread only: `add_from_path` returns Ok and the archive silently lacks the rest of the tree.
* **C36** the stored size is the one of the metadata: a file that changes between `stat` and read gets a size that is not the length of its content.
* **C40** rights are read back as one byte: the bits above 0o377 of the mode are lost.
* **C41** tar hard links become empty files; a directory member after one of its files loses its metadata.
* **C42** zip links become files with the target as content; `--compression` is ignored (observed).
* **C44** `--recurse` is accepted and ignored with a file list. **C54** `--follow-symlink` is accepted and ignored with input files.
* **C45** `arx dump -o FILE` never writes FILE: it opens it read-only; a missing pack is reported as success.
* **C46** `none=5` is accepted.
* **C47** links with an empty, NUL-containing or non UTF-8 target can be archived, not extracted.
* **C50** times before 1970 are stored as numbers near 2^64 and crash the mount and `newer` extraction.
* **C52** an empty list file extracts everything.
* Observed, not stated as a property: selecting `./a` extracts nothing, silently; the walk of a hostile archive with a cyclic directory does not end; `mount.fuse.arx` refuses only an option that is exactly `rw` (`-o ro,rw` is accepted, the mount is still read-only); the documentation of `create` says that leading `/` are stripped but absolute paths are refused; paths with `..` are stored as directories named `..`; an exception in the body of a Python `with` still writes the archive; `arx create -o /` panics; an output created by another process between the check and the end of `create` is overwritten.
* **C57** An entry table in which a directory contains itself makes `arx list`/`extract` recurse without end (`C57_counterexample`); a table with a link and a directory of the same name makes extraction write outside of the target (`C57_extract_counterexample`). The creator makes neither (`C57_created_forward`, C01).
* **C58** `arx list` and `arx dump` never flush: a failure to write the last buffered bytes (all of a small listing, e.g. to a full disk) is reported as success [`C58_counterexample`].
* **C59** After an interrupted extraction (which leaves empty or truncated files under their final names) the modes `skip`, `warn` and `newer` keep those files and report success [`C59_counterexample`].
* **C62** tar2arx without `--outfile` removes two extensions: `v1.2.tar` and `v1.3.tar` both are written to `v1.arx`, the second replaces the first without a question; `https://..` as input panics.
* **C64** an archive with unsorted names mounts, but `lookup` depends on whether the directory was listed before (the listing fills the cache); a directory whose children are not in the table crashes the mount.
* **C65** `arx mount` without `--foreground` detaches first and mounts afterwards: a mount that the kernel refuses (the mount point does not exist, no permission) is reported as success (`C65_counterexample`). An empty `--root-dir` and a path of the archive that is not UTF-8 panic.
* **C66** a container that has an index `arx_root` on entries without variants, or without one of the properties, crashes `Arx::new` (`unwrap`, `assert_eq`, indexing) [`C66_counterexample`]. The vendor id is not checked.
* **C77** The help of `arx create` says that the root is removed from absolute INFILES, and the README shows `--strip-prefix /home/user/documents` with absolute inputs; `C77_absolute`: every command with an absolute input fails.
* **C78** `arx create -o out.arx ..` and `arx create -o / x` crash (`C78_counterexample`); `C78_no_crash_partial`: only inputs ending in `..` and the output `/` can.
* **C80** `Creator.add` of the Python module returns normally for a path that does not exist: the walking thread panics on the error of `WalkDir`, its channel closes, and `add_from_path` returns `Ok(())`; the archive silently lacks it. (The command checks `exists()` first; the module does not.) A path ending in `..` crashes instead of raising.
* **C86** Names are printed unescaped: a name containing a newline can imitate other entries in the stable listing, and a link path containing `->` is ambiguous.
* **C37** If `Creator.add("d/..")` crashes and the program catches the `PanicException`, the `RwLock` of the root directory is poisoned: every later `add` of an entry and the final `__exit__` crash, and nothing is written [`C37_counterexample`, `C80_lost`]. After a crash of `add("..")` the program can go on.
* **C87** `Entry.__eq__` compares the index only: entries of different archives compare equal [`C87_counterexample`].
* **C88** tar2arx panics on `./`, absolute or non-UTF-8 members, URLs without file name and unknown input; zip2arx on encrypted members, times out of range and non-UTF-8 names [`C88_tar_partial`, `C88_zip_partial`: exactly when].
* **C89** `tar2arx` and `arx create` keep `..` in paths, and extracting such an archive writes outside of the output directory; so does `zip2arx` with a member `d/../e/f` and `extract --root-dir d` [`C89_tar_counterexample`, `C89_create_counterexample`, `C89_root_counterexample`].
* **C90** a writer that is told again and again that zero bytes were written never ends: the loop uses `write`, not `write_all` [`C90_needs_steps`].
* **C91** a member for a directory that comes after its contents is dropped: its owner, mode and time are not stored, and the archive keeps those made up for an implied directory [`C91_order_needed`].
* **C93** if a recursive add of a directory raises and the program goes on, the archive keeps a part of the directory that depends on the order in which the system lists it [`C93_exception_counterexample`].
* **C95** the README is wrong about `arx create` without `-r`, about `--strip-prefix` with absolute paths, about `arx list --stable-output my_archive.arx` (the option needs a number) and about `arx dump` to a file [the theorems `C95_*_counterexample`].
The reading program in python/README.md calls `loop_on_entry_generator`, which does not exist, and `entry.nb_childen`: as printed it raises at the first directory (C98).
zip2arx accepts `--compression` (`-c`), checks its value, and ignores it: the archive is always compressed with zstd at its default level (zip2arx/src/main.rs:238-244) (`C101_zip_counterexample`).
* C106: `ArxFs::read` (libarx/src/arx_fs.rs:599) unwraps the result of reading the content: one damaged cluster ends the whole mount.
