{"id": "C01", "title": "Reading back what was added", "statement": "Start from an empty creator, perform any sequence of add_entry calls, finalize, reopen. Arx::get_entry(path) then succeeds exactly for the paths that were accepted and for their ancestors, and the entry returned has the kind, uid, gid, mtime, size, content address and link target of the call that first created that path (default directory metadata for ancestors created implicitly). Every other non-empty path is reported as not found.", "quantifier": "every finite sequence of add calls with arbitrary paths, kinds and metadata (including refused ones), every queried path", "why_tests_cant": "the set of histories and directory shapes is infinite; a test samples a few trees, and the binary search only fails on particular layouts", "anchors": ["libarx/src/create/entry_store_creator.rs: EntryStoreCreator::add_entry, DirEntry::add, DirEntry::ensure_dir, DirEntry::add_entry, finalize", "libarx/src/arx.rs: Arx::get_entry", "libarx/src/common/mod.rs: EntryCompare::compare_entry"]}
{"id": "C02", "title": "A refused add changes nothing", "statement": "If add_entry returns an error, the archive that will be written is exactly the one that would have been written without that call (no entry, directory or metadata added or changed).", "quantifier": "every creator state reachable by any history, every entry that is refused in it", "why_tests_cant": "needs every state x every refusal reason; ancestors are created before the final check, so the property is not evident from the code", "anchors": ["libarx/src/create/entry_store_creator.rs: DirEntry::add, ensure_dir, add_entry"]}
{"id": "C03", "title": "Exactly when an add is accepted", "statement": "Adding a file or link is refused exactly when the path already exists or some proper ancestor is a file or link; adding a directory is refused exactly when the path is a file/link or some proper ancestor is; re-adding an existing directory is accepted and changes nothing (its first metadata stays).", "quantifier": "every reachable creator state, every path and kind", "why_tests_cant": "decision over all combinations of existing paths and ancestor chains of any depth", "anchors": ["libarx/src/create/entry_store_creator.rs: DirEntry::add_entry, DirEntry::add"]}
{"id": "C04", "title": "Implicit parent directories", "statement": "After a successful add of a/b/c, a and a/b exist as directories; those that did not exist have owner 1000, group 1000, rights 0755 and mtime 0, and those that existed, and all other entries, keep their metadata.", "quantifier": "every reachable creator state, every path depth", "why_tests_cant": "unbounded depth and arbitrary pre-existing trees", "anchors": ["libarx/src/create/entry_store_creator.rs: DirEntry::ensure_dir", "arx/src/create.rs: AFTER_HELP"]}
{"id": "C05", "title": "Children of a directory are one contiguous sorted range", "statement": "In the written archive, the (first_child, nb_children) range of each directory contains the index of every child of that directory and of nothing else, children appear in strictly increasing byte order of name, the root index covers exactly the top-level entries, and the child ranges of different directories are disjoint.", "quantifier": "every add history, every directory of the resulting archive", "why_tests_cant": "the sort order depends on the positions being computed by the sort itself; only an argument over all trees shows the min/count encoding denotes exactly the children", "anchors": ["libarx/src/create/entry_store_creator.rs: first_entry_generator, entry_count_generator, as_parent_idx_generator, finalize, Schema sort keys [Parent, Name]"]}
{"id": "C06", "title": "Archive layout does not depend on insertion order", "statement": "Two add histories (in any order, with any refused or repeated adds interleaved) that describe the same set of (path, kind, metadata) produce the same entry table, entry by entry.", "quantifier": "all pairs of histories with the same resulting path map", "why_tests_cant": "factorially many orders; a test can compare only a few permutations", "anchors": ["libarx/src/create/entry_store_creator.rs: EntryStoreCreator, finalize"]}
{"id": "C07", "title": "Finalization always finds a layout", "statement": "For every archive content, repeatedly sorting the entries by (parent position, name) and renumbering reaches a fixed point after at most as many rounds as the tree is deep, and that fixed point is the only possible one. So with a retry budget of at least the depth, finalization never gives up.", "quantifier": "every add history, every initial numbering and every correct sort procedure", "why_tests_cant": "termination of a self-referential sort: no finite set of runs shows it", "anchors": ["libarx/src/create/entry_store_creator.rs: Schema sort keys, Vow/Bound usage in ensure_dir/add_entry"]}
{"id": "C08", "title": "Parent links lead to the containing directory", "statement": "For every entry of a written archive, parent() is None exactly for top-level entries, otherwise it is the index of the directory whose child range contains the entry; following parents always ends at the root, and the names met on the way spell the path the entry was added under.", "quantifier": "every add history, every entry", "why_tests_cant": "unbounded depth; parent indices are only known after sorting", "anchors": ["libarx/src/create/entry_store_creator.rs: as_parent_idx_generator", "libarx/src/entry.rs: CommonBuilder::create_entry", "python/src/entry.rs: parent"]}
{"id": "C09", "title": "A walk visits every entry exactly once", "statement": "Walker::run on any archive produced by the creator terminates and calls the operator exactly once per entry, with each directory entered before and exited after all of its content, and siblings visited in increasing byte order of name.", "quantifier": "every add history, every operator that enters all directories", "why_tests_cant": "termination and exhaustiveness over trees of any size and shape", "anchors": ["libarx/src/walk.rs: Walker::run, Walker::_run", "libarx/src/common/mod.rs: ReadEntry"]}
{"id": "C10", "title": "The walk context is always the path of the entry being visited", "statement": "While walking, the current path given to the operator equals the full path of the visited entry, also after directories whose content was skipped, and it is back to its initial value at the end.", "quantifier": "every add history whose names contain no '.' component, every subset of directories being skipped", "why_tests_cant": "push/pop balance must hold on all paths including skipped directories", "anchors": ["libarx/src/tools.rs: on_directory_enter, on_directory_exit, on_file, on_link", "arx/src/list.rs: Lister, StableLister", "arx/src/light_path.rs: LightPath"]}
{"id": "C11", "title": "arx list prints every path once", "statement": "The output of `arx list` is exactly one line per entry: its full path with '/' separators, directories before their content, in sorted order, nothing else.", "quantifier": "every add history", "why_tests_cant": "all tree shapes and names", "anchors": ["arx/src/list.rs: Lister", "arx/src/light_path.rs: println2, println"]}
{"id": "C12", "title": "Stable listing lines", "statement": "`arx list --stable-output 1` prints exactly one line per entry: 'd mtime path', 'f mtime size path' or 'l mtime path->target' with the values the entry was added with; any other version number is refused without output.", "quantifier": "every add history, every version number", "why_tests_cant": "all tree shapes, names and metadata", "anchors": ["arx/src/list.rs: StableLister, list"]}
{"id": "C13", "title": "Selection: exactly the requested entries are extracted", "statement": "With an empty selection everything is extracted. Otherwise an entry is extracted iff it is named in the selection, or (recursive mode) some proper ancestor (the empty path included) is, or it is a directory that is an ancestor of a named path; because directories that are not selected are not entered, this is also exactly the set of entries the whole extraction creates.", "quantifier": "every archive, every selection set, both recursion modes", "why_tests_cant": "interaction between pruning directories and selecting descendants for all trees", "anchors": ["libarx/src/tools.rs: Extractor::should_extract, on_directory_enter, on_file, on_link"]}
{"id": "C14", "title": "Extraction reproduces the archive tree", "statement": "Extracting an archive without '.'/'..' names, with UTF-8 link targets and no missing pack into a directory that is empty or does not exist ends with that directory containing exactly the archive's tree: same names, same kinds, file bytes equal to the stored content, link targets equal to the stored targets; nothing outside the directory is changed.", "quantifier": "every add history, every content, every file system state outside the target, every write schedule", "why_tests_cant": "unbounded trees and contents", "anchors": ["libarx/src/tools.rs: extract_arx, Extractor"]}
{"id": "C15", "title": "Skip, warn and error modes never touch what already exists", "statement": "With overwrite mode skip, warn or error, extraction never modifies, truncates or removes any file, link or directory that existed before, whatever the archive contains (even a hostile archive) and wherever symbolic links in the target point.", "quantifier": "every archive (well formed or not), every prior file system state, every selection, every failure point", "why_tests_cant": "a safety property over all file system states and partial executions", "anchors": ["libarx/src/tools.rs: on_file, on_link, on_directory_enter, Overwrite"]}
{"id": "C16", "title": "Newer and overwrite modes", "statement": "For an existing regular file: 'overwrite' replaces its content by the archived content; 'newer' does so exactly when the archived mtime is >= the file's mtime and otherwise leaves it untouched. For an existing link or file in place of a link: 'overwrite' replaces it by the link, 'newer' does so exactly when the archived mtime is >= its own mtime. Nothing else is modified.", "quantifier": "every file system state, every entry and mtime", "why_tests_cant": "all boundary values of mtime and all kinds of existing node", "anchors": ["libarx/src/tools.rs: on_file lines 242-275, on_link lines 323-351"]}
{"id": "C17", "title": "Extraction stays inside the target directory", "statement": "Extraction never creates, changes or removes anything outside the output directory.", "quantifier": "every archive the creators can produce, every file system state without symlinks under the target", "why_tests_cant": "an escape exists only for particular names, so absence must be shown for all names", "anchors": ["libarx/src/tools.rs: abs_path, on_directory_enter, on_file, on_link", "libarx/src/create/entry_store_creator.rs: ensure_dir"]}
{"id": "C18", "title": "The write loop writes the whole content", "statement": "For every content and every sequence of short writes (each writing at least one byte), the file writer ends having written exactly the content, in order, once, and it never asks for a slice outside the content.", "quantifier": "every content size, every sequence of short write results", "why_tests_cant": "short writes do not happen in tests", "anchors": ["libarx/src/tools.rs: on_file lines 277-297"]}
{"id": "C19", "title": "Parallel extraction is schedule independent", "statement": "Whatever the interleaving of the parallel writer tasks, of their individual chunks and of the walking thread, a finished extraction leaves the same file system state and the same verdict.", "quantifier": "every interleaving of any number of writer tasks", "why_tests_cant": "interleavings are exponentially many", "anchors": ["libarx/src/tools.rs: extract_arx, scope.spawn"]}
{"id": "C20", "title": "Extraction reports failures", "statement": "If extract returns Ok then every selected file has been completely written (or deliberately left alone by the overwrite mode).", "quantifier": "every archive, every pack availability, every write error", "why_tests_cant": "failure injection at every point", "anchors": ["libarx/src/tools.rs: extract_arx, on_file (MISSING branch), extract_ok"]}
{"id": "C21", "title": "Mount caches are invisible", "statement": "For every sequence of FUSE requests, each reply equals the reply a cache-less implementation would give for the same archive; cache evictions and previously cached negative answers never change an answer.", "quantifier": "every request history, every cache capacity", "why_tests_cant": "wrong answers appear only after particular histories and evictions", "anchors": ["libarx/src/arx_fs.rs: lookup, getattr, readdir, resolve_cache, attr_cache"]}
{"id": "C22", "title": "Inode numbers identify entries", "statement": "Inode 1 is the mount root, entry i has inode i+2, inode 0 is never returned, the mapping is injective and converting back gives the entry, for every index below 2^32.", "quantifier": "every entry index and inode", "why_tests_cant": "2^32 values; off-by-two errors", "anchors": ["libarx/src/arx_fs.rs: Ino, From<EntryIdx>, TryInto<EntryIdx>"]}
{"id": "C23", "title": "Lookup finds exactly the children of a directory", "statement": "lookup(parent, name) on a mounted archive replies with the attributes of the child of that directory having exactly these name bytes, and ENOENT iff there is none; resolving a path component by component from the mount root reaches the same entry as Arx::get_entry. (An entry whose attributes the kernel interface cannot hold, that is with a time of 2^63 seconds or more or a size that overflows 64 bits when rounded up, crashes the mount instead, see C30 and C50; no other entry is affected.)", "quantifier": "every archive, directory, name and path", "why_tests_cant": "all directory sizes and names; binary search boundaries", "anchors": ["libarx/src/arx_fs.rs: lookup, get_entry_range"]}
{"id": "C24", "title": "readdir lists each child exactly once across pages", "statement": "Reading a directory page by page, each time passing the offset of the last entry received, yields '.', '..' and then every child exactly once in order, whatever the page sizes.", "quantifier": "every directory size, every sequence of page capacities", "why_tests_cant": "page boundaries at every position", "anchors": ["libarx/src/arx_fs.rs: readdir"]}
{"id": "C25", "title": "read returns the requested bytes", "statement": "read(ino, offset, size) on an open file returns exactly the content bytes from offset up to min(offset+size, end of file).", "quantifier": "every content, offset and size", "why_tests_cant": "boundary arithmetic at every offset", "anchors": ["libarx/src/arx_fs.rs: read"]}
{"id": "C26", "title": "Open files stay readable until the last release", "statement": "After any history of open and release requests, a file is readable iff it has been opened more often than released; its data is dropped when the counts meet; releasing a file that is not open gives ENOENT and changes nothing.", "quantifier": "every history of open/read/release on any set of inodes", "why_tests_cant": "reference counting over all histories", "anchors": ["libarx/src/arx_fs.rs: open, read, release, region_cache"]}
{"id": "C27", "title": "Mounted files are never writable", "statement": "The permission bits reported for any entry never contain a write bit and otherwise equal the low 16 bits of the stored mode.", "quantifier": "every stored mode", "why_tests_cant": "2^64 modes", "anchors": ["libarx/src/arx_fs.rs: AttrBuilder::create_entry"]}
{"id": "C28", "title": "Attributes of mounted entries", "statement": "getattr reports for a file its stored size, for a link the length of its target, uid/gid/mtime as stored, the right kind, and a block count that covers the size with less than one 4 KiB unit of slack. (This is so for each entry with owner and group below 2^32 whose attributes the kernel interface can hold; for others getattr crashes, see C30 and C50.)", "quantifier": "every entry and size", "why_tests_cant": "64-bit boundary values", "anchors": ["libarx/src/arx_fs.rs: AttrBuilder, div_ceil"]}
{"id": "C29", "title": "readdir and lookup agree", "statement": "Every name listed by readdir in a directory is found by lookup in that directory with the same inode and kind (or crashes the mount, if the attributes of that entry cannot be given to the kernel, see C30 and C50), and every name found by lookup is listed.", "quantifier": "every archive, directory, history", "why_tests_cant": "cross-operation consistency over all histories", "anchors": ["libarx/src/arx_fs.rs: readdir, lookup"]}
{"id": "C30", "title": "The mount never crashes on kernel requests", "statement": "For an archive produced by the creator, no sequence of requests that only uses inodes previously returned to the kernel (or 1), looks up and lists only directories, and reads only open files, makes a request handler panic.", "quantifier": "every archive, every such request history", "why_tests_cant": "a panic kills the mount; only reachable through particular histories", "anchors": ["libarx/src/arx_fs.rs: all unwrap() calls"]}
{"id": "C31", "title": "Mounting or extracting a sub-directory", "statement": "With --root-dir d, the mounted (extracted) tree is exactly the sub-tree below d, with the same names, content and attributes; a path that is not a directory is refused; '..' of a top-level directory of the mount is the mount root.", "quantifier": "every archive and directory", "why_tests_cant": "all positions of the sub-directory in the index", "anchors": ["arx/src/mount.rs: mount", "arx/src/extract.rs: extract", "libarx/src/tools.rs: extract_arx_range", "libarx/src/arx_fs.rs: new_from_root, readdir"]}
{"id": "C32", "title": "Path lookup never crashes", "statement": "Arx::get_entry(path) returns an entry or an error for every path; it does not panic.", "quantifier": "every archive, every path including empty and odd ones", "why_tests_cant": "the input space of paths is infinite", "anchors": ["libarx/src/arx.rs: Arx::get_entry"]}
{"id": "C33", "title": "Prefix stripping", "statement": "add_entry_from_path stores an entry under the path with strip_prefix removed; it is refused iff the prefix is not a component-wise prefix of the path, and the prefix directory itself is silently skipped. Absolute and non UTF-8 paths are refused.", "quantifier": "every path and prefix", "why_tests_cant": "all spellings of a path", "anchors": ["libarx/src/create/fs_adder.rs: add_entry_from_path"]}
{"id": "C34", "title": "Recursive adding adds the whole tree", "statement": "If add_from_path(dir, recurse=true) returns Ok then every file, link and directory found below dir has been offered to the archive, in an order where parents precede children, whatever the relative speed of the walking and the adding thread.", "quantifier": "every directory tree, every enumeration order, every thread interleaving, every I/O failure of the walk", "why_tests_cant": "thread interleavings and failures at every point", "anchors": ["libarx/src/create/fs_adder.rs: add_from_path_with_filter"]}
{"id": "C35", "title": "Create then extract gives back the tree", "statement": "Creating an archive from a directory tree and extracting it in an empty directory reproduces the tree: same paths, file bytes and link targets.", "quantifier": "every source tree with UTF-8 names and link targets (archived under a path without '..'; special files are not archived), every enumeration order of directories, every schedule", "why_tests_cant": "end-to-end over all trees", "anchors": ["libarx/src/create/fs_adder.rs", "libarx/src/create/entry_store_creator.rs", "libarx/src/tools.rs"]}
{"id": "C36", "title": "The reported size is the content length", "statement": "For a file added from the file system, the size reported by list, getattr and the Python API equals the length of the content returned.", "quantifier": "every file and every concurrent modification between stat and read", "why_tests_cant": "race between two system calls", "anchors": ["libarx/src/create/fs_adder.rs: detect_kind, FsEntry::new_from_path"]}
{"id": "C37", "title": "Python creator life cycle", "statement": "For every sequence of calls on a Python Creator: the archive is finalized at most once, exactly by the first __exit__ that follows an __enter__; add is accepted only between the two; every other call raises and changes nothing.", "quantifier": "every call history", "why_tests_cant": "all call orders", "anchors": ["python/src/creator.rs: Creator"]}
{"id": "C38", "title": "Python stream reads", "statement": "For every sequence of read(n) calls, the concatenation of the results is the prefix of the content of the total length read, each call returns min(n, size_left) bytes, and tell() + size_left() == size() always.", "quantifier": "every content and every sequence of read sizes", "why_tests_cant": "all read patterns", "anchors": ["python/src/stream.rs: Stream"]}
{"id": "C39", "title": "Python iteration", "statement": "Iterating an archive (or a directory entry) yields each top-level entry (each child) exactly once in name order then stops; nb_children is their number; parent of a child is the directory it was found in, and top-level entries have none.", "quantifier": "every archive and directory", "why_tests_cant": "all directory sizes", "anchors": ["python/src/iterator.rs: EntryIter", "python/src/entry.rs: Entry"]}
{"id": "C40", "title": "Metadata read-back through the entry API", "statement": "owner(), group(), rights() and mtime() of a read entry are the values it was added with.", "quantifier": "every metadata value", "why_tests_cant": "integer truncation shows only for particular values", "anchors": ["libarx/src/entry.rs: CommonPart, CommonBuilder::create_entry"]}
{"id": "C41", "title": "tar conversion keeps every member", "statement": "tar2arx produces an archive with, for every tar member that is a directory, symlink, regular file or hard link, an entry at its path with its kind, content and metadata.", "quantifier": "every sequence of tar members", "why_tests_cant": "all member types and orders", "anchors": ["tar2arx/src/main.rs: TarEntry::new, Converter::run"]}
{"id": "C42", "title": "zip conversion keeps every member", "statement": "zip2arx produces an entry for every zip member with its content, mode (0644 when absent) and modification time (extended timestamp first, then DOS time, then 0), never outside the archive root.", "quantifier": "every sequence of zip members", "why_tests_cant": "all metadata combinations", "anchors": ["zip2arx/src/main.rs: ZipEntry::new, Converter::run"]}
{"id": "C43", "title": "create does not overwrite without --force", "statement": "If the output file exists (not as a dangling link) and --force is not given, or its directory does not exist, arx create fails before anything is written or any input is read; a create that fails at any earlier step than finalize leaves an existing output file untouched.", "quantifier": "every file system state, every option combination, every failure point", "why_tests_cant": "all failure points", "anchors": ["arx/src/create.rs: check_output_path_writable, check_input_paths_exist, create"]}
{"id": "C44", "title": "--recurse is honoured", "statement": "arx create recurses into listed directories exactly when --recurse is in effect, for both positional inputs and file lists.", "quantifier": "every option combination and input tree", "why_tests_cant": "all option combinations", "anchors": ["arx/src/create.rs: create, Options::recurse", "libarx/src/create/fs_adder.rs: add_from_list"]}
{"id": "C45", "title": "dump outputs exactly the file content", "statement": "arx dump of a file path writes exactly the stored content to stdout or to the given output file; a directory or link path is refused without output.", "quantifier": "every archive, path and output choice", "why_tests_cant": "all contents and output states", "anchors": ["arx/src/dump.rs: dump, dump_entry"]}
{"id": "C46", "title": "Compression argument parsing", "statement": "The compression argument 'algo[=level]' is recognised case-insensitively in algo; an unknown algo is rejected naming it, a bad level is rejected; accepted values denote exactly the given algorithm and level.", "quantifier": "every argument string", "why_tests_cant": "infinite input space", "anchors": ["libarx/src/cmd_utils.rs: compression_arg_parser, ConcatMode"]}
{"id": "C47", "title": "Every archive that can be created can be extracted", "statement": "If creation of an archive succeeds, extracting it in an empty directory succeeds.", "quantifier": "every add history", "why_tests_cant": "failures depend on particular names/targets", "anchors": ["libarx/src/tools.rs: LinkBuilder::create_entry", "libarx/src/create/entry_store_creator.rs: add_entry", "libarx/src/create/fs_adder.rs: FsEntry::kind"]}
{"id": "C48", "title": "Redundant separators do not matter", "statement": "Paths that differ only by repeated, leading or trailing '/' denote the same entry for adding, lookup and selection.", "quantifier": "every path spelling", "why_tests_cant": "infinitely many spellings", "anchors": ["libarx/src/common/mod.rs: Path, PathBuf (relative_path)", "libarx/src/arx.rs: get_entry", "libarx/src/tools.rs: should_extract"]}
{"id": "C49", "title": "Adding never crashes", "statement": "add_entry returns Ok or an error for every entry; it does not panic.", "quantifier": "every creator state and entry path", "why_tests_cant": "infinitely many paths", "anchors": ["libarx/src/create/entry_store_creator.rs: DirEntry::add_entry (file_name panic)", "tar2arx/src/main.rs"]}
{"id": "C50", "title": "Modification times survive", "statement": "Any modification time a source file can have can be archived, listed, mounted and compared on extraction without failure.", "quantifier": "every 64-bit mtime including negative (pre-1970)", "why_tests_cant": "extreme values", "anchors": ["libarx/src/create/fs_adder.rs: mtime cast", "libarx/src/arx_fs.rs: AttrBuilder", "libarx/src/tools.rs: Overwrite::Newer"]}
{"id": "C51", "title": "Answers to open requests", "statement": "Opening an inode of a mounted archive answers EISDIR for the root and for directories, ENOENT for symbolic links, and for a file: a handle if its content is available, ENOMEDIUM if its pack is missing, EIO if it cannot be read; a refused open changes nothing in the state of the mount.", "quantifier": "every mounted archive, every state reachable by kernel requests, every inode", "why_tests_cant": "all inodes x all pack states x all histories", "anchors": ["libarx/src/arx_fs.rs: ArxFs::open"]}
{"id": "C52", "title": "arx extract does what its options say", "statement": "arx extract extracts exactly the entries named on the command line or in the list file (all when nothing is named), with their descendants when recursion is on (default without a list file, or with --recurse), under the -C directory, from --root-dir when given; bad paths or an unreadable list file are refused before anything is written.", "quantifier": "every archive, option combination, list file text and target directory", "why_tests_cant": "option combinations x archives x list file texts", "anchors": ["arx/src/extract.rs: extract, get_files_to_extract, Options::recurse"]}
{"id": "C53", "title": "Python reading", "statement": "Arx.get_entry(path) of the Python module succeeds exactly for the relative paths of the archive's entries and returns the entry with the stored metadata; get_content gives a stream over the stored content for files (TypeError otherwise, OSError when the pack is missing), get_target the stored link target; extract writes the whole archive, keeping existing files; none of them crashes.", "quantifier": "every archive and path", "why_tests_cant": "all archives and paths", "anchors": ["python/src/arx.rs: Arx", "python/src/entry.rs: Entry"]}
{"id": "C54", "title": "--follow-symlink is honoured", "statement": "With --follow-symlink, arx create archives what a symbolic link leads to instead of the link; without it links are archived as links with their target; for input files and for file lists.", "quantifier": "every option combination, input tree and file list", "why_tests_cant": "all option combinations and trees", "anchors": ["arx/src/create.rs: create, Options::follow_symlink", "libarx/src/create/fs_adder.rs: FsAdder::add_from_path, add_from_list"]}
{"id": "C55", "title": "Extracting an archive and archiving the result gives it back", "statement": "If a directory of an archive (or the whole) is extracted to an empty or missing directory without a failing call, and the result is then added recursively to a new archive, the new archive holds, under the stored name of the added directory, exactly the entries of the first: the same paths, kinds, file contents and link targets, and nothing else.", "quantifier": "every archive whose names and targets can be recreated, overwrite mode, scheduling of the writers of the extraction, order of directory listings, interleaving of the adding threads and layout of both archives", "why_tests_cant": "composes two concurrent programs through the file system; tests can only run a few trees and schedules", "anchors": ["libarx/src/tools.rs: extract_arx_range", "libarx/src/create/fs_adder.rs: FsAdder::add_from_path", "libarx/src/create/entry_store_creator.rs: EntryStoreCreator"]}
{"id": "C56", "title": "Equal contents are stored once", "statement": "In an archive written by arx create, tar2arx, zip2arx or a program that adds paths with the library, no content is stored twice, every file entry has its content in the pack, and two file entries have the same content address exactly if their contents are equal.", "quantifier": "every sequence of added paths or members, refused ones included, every change of the source files meanwhile, and every layout of the archive", "why_tests_cant": "all input histories; a test sees a few files", "anchors": ["libarx/src/create/creator.rs: SimpleCreator", "libarx/src/create/fs_adder.rs: FsAdder", "tar2arx/src/main.rs: TarEntry", "zip2arx/src/main.rs: ZipEntry"]}
{"id": "C57", "title": "Reading archives that were not made by the creator", "statement": "For any entry table, however wrong: get_entry answers only an entry that the names of the path lead to, crashes only for a path without names (or a parent number no creator writes), and walking the archive ends. Extracting it to an empty directory changes nothing outside of that directory.", "quantifier": "every table of entries and every path", "why_tests_cant": "all malformed tables", "anchors": ["libarx/src/arx.rs: Arx::get_entry", "libarx/src/walk.rs: Walker", "libarx/src/common/builder.rs", "libarx/src/tools.rs: extract_arx_range"]}
{"id": "C58", "title": "A reported success means the output was written", "statement": "If arx list or arx dump report success, everything they print was delivered to standard output. Whatever happens to standard output, what is delivered is a prefix of the full output, and an error is reported only if the command itself or a write failed.", "quantifier": "every archive and option, every behaviour of standard output at every write (errors, partial writes, any buffering)", "why_tests_cant": "fault at every write position", "anchors": ["arx/src/list.rs: list, Lister, StableLister", "arx/src/light_path.rs: LightPath::println2", "arx/src/dump.rs: dump_entry"]}
{"id": "C59", "title": "An interrupted extraction can be completed", "statement": "Whatever happens to extractions of an archive to an empty or missing directory - they are killed at any moment, calls fail, writers stop in the middle of a file, in any overwrite mode - nothing outside of the directory is ever changed, and running the extraction again with 'overwrite' without failing calls reports success and leaves exactly the tree of the archive.", "quantifier": "every archive whose names and targets can be recreated, every number of earlier attempts, every crash or fault position, every progress of the writers", "why_tests_cant": "all crash points and histories of attempts", "anchors": ["libarx/src/tools.rs: extract_arx_range, Extractor, Overwrite"]}
{"id": "C60", "title": "What an extraction leaves at every moment", "statement": "At every moment of an extraction to a directory without symbolic links or aliased files in the way, and after an extraction that was killed or failed at any point: nothing but the places of the selected entries has changed, and at the place of each entry there is what was there before, unchanged, or the entry as far as it has got: the directory; a file holding a first part of exactly the entry's content; the link, or nothing where a file or link is being replaced by a link.", "quantifier": "every created archive with plain names, target, selection, overwrite mode, crash or fault position and progress of the writers", "why_tests_cant": "all crash points, fault positions and interleavings of the writers", "anchors": ["libarx/src/tools.rs: extract_arx_range, Extractor"]}
{"id": "C61", "title": "A converter writes its output only when the whole input was converted", "statement": "tar2arx and zip2arx replace the output path as the last thing they do, and only if every member of the input was converted; a conversion that fails or crashes has not touched it. They succeed exactly if the output is known, the input can be read, every member is valid and no two are in conflict, and the archive can be written.", "quantifier": "all command lines, all inputs with any members (unreadable ones included)", "why_tests_cant": "the inputs are unbounded; a test shows one of them.", "anchors": ["tar2arx/src/main.rs: main, Converter::new, Converter::run", "zip2arx/src/main.rs: main, Converter::new, Converter::run"]}
{"id": "C62", "title": "The output tar2arx infers is named after its input", "statement": "Without --outfile, tar2arx writes the file of the same directory with the name of the tar file and the extension .arx instead of the tar's extension (in the current directory for a URL); tar files with different names do not get the same output.", "quantifier": "all input names", "why_tests_cant": "all texts are possible names; a test checks a few.", "anchors": ["tar2arx/src/main.rs: main"]}
{"id": "C63", "title": "Adding with a filter", "statement": "add_from_path_with_filter, if it returns Ok, has added exactly the entries of the tree that the filter accepts and for which it also accepts every directory above (the given path included), each once, parents before children; for a path that leads to no directory, or without recursion, only the path itself if the filter accepts it.", "quantifier": "all trees, filters, listing orders and interleavings of the walking and the adding thread, for walks without errors", "why_tests_cant": "trees, filters and schedules are unbounded.", "anchors": ["libarx/src/create/fs_adder.rs: FsAdder::add_from_path_with_filter"]}
{"id": "C64", "title": "Mounting archives that were not made by the creator", "statement": "Whatever the table of an archive is: an entry answered by lookup is a child of the directory with the asked name and has the attributes of its row; listings show only children; reads answer the content of that file; and no kernel request crashes the mount if the numbers of each row fit (known variant, children inside the table, representable sizes and times), even if names are unsorted or repeated, or directories contain themselves.", "quantifier": "all tables, all histories of requests", "why_tests_cant": "hostile archives are unbounded; the caches make answers depend on the history.", "anchors": ["libarx/src/arx_fs.rs: ArxFs (lookup, getattr, readlink, open, read, release, opendir, readdir)"]}
{"id": "C65", "title": "A mount command shows exactly the selected directory, read-only, and reports success only if it is mounted", "statement": "Whatever the options of `arx mount`, `mount.fuse.arx` or a self mounting archive and whatever the system answers: a mount that is made is read-only, is at the given directory (for `arx mount` without one: at a new directory beside the archive, which is removed when the command ends), and shows the whole archive or the directory given by --root-dir, which must be a directory of the archive. The command reports success if and only if the archive could be opened, that directory exists in it and the kernel has mounted it.", "quantifier": "all options, all archives, all answers of the system (archive cannot be opened, temporary directory cannot be made, process cannot detach, kernel refuses)", "why_tests_cant": "the answers of the system to opening, detaching and mounting combine with the options; a test tries one combination, with a kernel that mounts", "anchors": ["arx/src/mount.rs: mount", "arx/src/bin/mount_fuse_arx.rs: main", "arx/src/bin/auto_mount.rs: main", "libarx/src/arx_fs.rs: mount_options"]}
{"id": "C66", "title": "What was created opens, anything else is refused with an error", "statement": "Every archive that the creator has written opens, for reading and for mounting, and every attribute of every entry (name, parent, owner, group, rights, time, size, content, children, target) is read from the property it was stored in. A container opens exactly if it has the index of the archive's root on entries with the properties of arx, whatever their order; opening any other container returns an error and does not crash.", "quantifier": "all histories of adds with all layouts; all containers (indexes, schemas, rows)", "why_tests_cant": "writer and reader agree only by the spelling of property names and by the order of variants: a test sees the archives it makes, not all values, and no foreign containers", "anchors": ["libarx/src/create/entry_store_creator.rs: EntryStoreCreator::new, finalize", "libarx/src/common/properties.rs: AllProperties::new", "libarx/src/common/entry_type.rs: EntryType", "libarx/src/arx.rs: Arx::new", "libarx/src/arx_fs.rs: ArxFs::new_with_stats"]}
{"id": "C67", "title": "A mounted archive can be copied while other programs use it", "statement": "A program that copies the mount as cp -r does (list each directory page by page, look up each name, go into the directories, read the links, open the files, read them piece by piece and close them) ends after a bounded number of requests without an error and has every entry below the mounted directory exactly once, directories before their content, with its attributes and its content; whatever other programs request in between, as long as they close no file more often than they opened it. (For entries with representable times and sizes, not named . or .., with all contents available in their recorded size, and buffers that hold . and .. and any single entry.)", "quantifier": "all created archives, all mounted directories, all interleavings with other requests, all page and read sizes", "why_tests_cant": "it composes listing, lookup, attributes, links and reads over a history of unbounded length with foreign requests at every point", "anchors": ["libarx/src/arx_fs.rs: ArxFs (lookup, readlink, open, read, release, opendir, readdir, releasedir)"]}
{"id": "C68", "title": "Copying the mount and extracting give the same tree", "statement": "Copying a mounted archive (or directory of it) as in C67 and extracting the same archive (directory) to an empty place without a failing call give the same tree: the copied paths are exactly the extracted ones, each once, and each is the same kind of thing with the same content or link target.", "quantifier": "all created archives whose entries can be recreated (plain UTF-8 names, usable link targets, available contents of the recorded size), all directories of them, all interleavings of the extraction's writers and of the copy with other requests", "why_tests_cant": "two independent readers with caches, pages and threads; a test compares one tree under one schedule (tests/extract_mount.rs does)", "anchors": ["libarx/src/arx_fs.rs: ArxFs", "libarx/src/tools.rs: extract_arx_range"]}
{"id": "C69", "title": "Extraction beside other processes", "statement": "Whatever the system answers to each call (other processes may change the target at any time), extracting an archive written by arx only makes directories where selected directories go, opens files where selected files go and makes links where selected links go; it opens something existing for replacing, or removes something, only at such a place, after the system said that something is there, and only if the overwrite mode allows it; a file receives a first part of its content in order, and all of it if the extraction reports success; on success every selected entry was made or was there and was to be kept. In the modes skip, warn and error, for any archive, what was there before and other processes leave alone stays as it is at every moment.", "quantifier": "all created archives without entries named '.', all selections and modes, all answers of the system to every call, all interleavings of the walk, the writers and other processes; the last sentence: all entry tables", "why_tests_cant": "interference between any two system calls cannot be enumerated by tests, and the answers may be inconsistent with each other", "anchors": ["libarx/src/tools.rs: Extractor, extract_arx_range"]}
{"id": "C70", "title": "A source that changes is archived as it was seen", "statement": "Whatever other processes do to the source while it is archived, and whatever calls fail: every entry of the archive is either an implied parent directory or what one attempt for its path saw: kind, owner, group, mode, time and size all from one single answer of the system, content or link target as read afterwards at the same place. Every attempt that succeeded is in the archive. Recursive adding looks at exactly what its walk yielded before its first error, each once and in order, and stops at the first failure. An archive that `arx create` writes contains nothing that was not looked at successfully.", "quantifier": "all file systems changing at any call, all failing calls, all walks, all schedules of the two threads, all sequences of added paths", "why_tests_cant": "the source can change between any two system calls", "anchors": ["libarx/src/create/fs_adder.rs: FsAdder, FsEntry::new_from_path, detect_kind", "arx/src/create.rs: create"]}
{"id": "C71", "title": "arx create followed by arx extract brings back what was asked for", "statement": "Let `arx create` (with input files, or with a file list) write an archive of a source that does not change meanwhile, with any options, and `arx extract` extract it to an empty or missing directory with any selection (paths, list, root directory, recursion or not), any overwrite mode and any interleaving of the threads, no call failing. If no input path contains `..` and link targets are UTF-8, the extraction succeeds; every archived entry which the second command selects is there with its kind and its content or target; and nothing else is below the directory, except parents of such entries.", "quantifier": "all sources, inputs, options of both commands, schedules and layouts", "why_tests_cant": "it composes two commands over all sources and all selections", "anchors": ["arx/src/create.rs: create", "arx/src/extract.rs: extract", "libarx/src/create/fs_adder.rs: FsAdder", "libarx/src/tools.rs: extract_arx_range"]}
{"id": "C72", "title": "Extracting in several steps", "statement": "Extract parts of an archive to an empty or missing directory in any number of runs, each with its own selection, overwrite mode and thread interleaving. When all have ended with success, the directory contains exactly the entries that at least one run was asked for, complete, and nothing outside has changed: neither the order of the runs, nor their modes, nor asking twice for the same entry make a difference. A further run without failing calls succeeds in the modes skip, warn, overwrite and newer; in mode error it succeeds exactly if none of the files and links it asks for is there already.", "quantifier": "all archives that can be extracted, all sequences of runs with all selections, modes and schedules, all times between them", "why_tests_cant": "it quantifies over sequences of runs of any length", "anchors": ["libarx/src/tools.rs: extract_arx_range, Extractor", "arx/src/extract.rs: extract"]}
{"id": "C73", "title": "Converted archives extract to the original's tree", "statement": "Convert a tar or zip archive with tar2arx or zip2arx and extract the result with arx extract to an empty or missing directory. If the names and link targets are such that a file system takes them, the extraction succeeds and the directory contains exactly the tree of the members: every directory, every file with the member's data, every symbolic link (tar) with its target, at the member's path, directories on the way to a member, and nothing else; nothing outside the directory changes.", "quantifier": "all sequences of members that the conversion accepts, all layouts of the written archive, all thread interleavings of the extraction", "why_tests_cant": "it quantifies over all source archives and over the interleavings of the extraction", "anchors": ["tar2arx/src/main.rs: main, add_entry", "zip2arx/src/main.rs: main", "libarx/src/tools.rs: extract_arx_range"]}
{"id": "C74", "title": "Exit status and pipes", "statement": "arx create, extract and mount end with status 0 exactly if the command reported success. When standard output is a pipe, arx list and arx dump end with status 0 only if the reader got the whole output; if the reader goes away before, it has got the beginning of the output and the process is ended by SIGPIPE, it does not report an error; any other status means that the command itself failed, whatever the reader does.", "quantifier": "all commands and options, all archives, all moments at which the reader goes away and all bufferings", "why_tests_cant": "it quantifies over the moment at which the reader goes away, which tests cannot control, and over all buffer states", "anchors": ["arx/src/main.rs: main, run", "arx/src/list.rs: list", "arx/src/dump.rs: dump"]}
{"id": "C75", "title": "When an extraction succeeds", "statement": "If no system call fails for an external reason, an extraction (in any overwrite mode, with any selection, to a place without symbolic links in the way) succeeds exactly if: no file is on the way to the output directory; whatever exists where a selected entry goes is no conflict for the mode; the content of every selected file can be looked up; the names (and link targets) of all entries in selected directories are UTF-8; and the targets of selected links can be link targets. So the result depends only on the archive, the options and the target, not on the interleaving of the writers.", "quantifier": "all archives, directories in them, targets, overwrite modes, selections and interleavings of the writers", "why_tests_cant": "an equivalence between the result and a condition on all entries of an archive and all states of the target, for every schedule of the writers", "anchors": ["libarx/src/tools.rs: Extractor, extract_arx_range", "libarx/src/walk.rs: Walker"]}
{"id": "C76", "title": "Every way of reading shows the same archive", "statement": "For an archive created by the library with UTF-8 names (none of them . or ..), representable times and available contents of the recorded size, all readers agree: a program that copies the mounted file system sees exactly the paths that arx list prints, in that order; arx list --stable-output 1 prints the kind, time, size and target that were seen; get_entry, get_content and get_target of the Python module give for each of these paths the same attributes, bytes and target and for every other such path a ValueError; arx dump writes the bytes that were copied of a file and refuses every other path.", "quantifier": "all archives made by the creator, all copying programs that ask fairly and all requests made before, all outputs that accept what is written", "why_tests_cant": "agreement of four independent readers over all archives and all client behaviours", "anchors": ["arx/src/list.rs: list, StableLister", "arx/src/dump.rs: dump", "python/src/arx.rs: Arx::get_entry", "python/src/entry.rs: Entry", "libarx/src/arx_fs.rs: ArxFs"]}
{"id": "C77", "title": "When arx create succeeds", "statement": "arx create on a source that does not change meanwhile and that can be listed succeeds if and only if: the output is a path in an existing directory and nothing is there yet (or --force is given); the base directory can be entered; the archive can be opened and written; every input (or line of the readable file list) is a relative UTF-8 path inside the strip prefix which leads to something and, if it is stored, ends in a name; with recursion all names below the inputs are UTF-8; and no file or link is to be stored where another input stores something or a directory above it. This holds for every interleaving of the walking and the adding thread. In particular a command with an absolute input file always fails, before any input is read.", "quantifier": "all command lines, source trees, directory listing orders, thread interleavings and states of the output", "why_tests_cant": "an if-and-only-if over all source trees and interleavings; tests can only show single outcomes", "anchors": ["arx/src/create.rs: create, check_input_paths_exist, check_output_path_writable", "libarx/src/create/fs_adder.rs: FsAdder", "libarx/src/create/entry_store_creator.rs: add_entry"]}
{"id": "C78", "title": "arx create does not crash", "statement": "For every command line that is accepted, whatever the source tree contains, whatever happens to it meanwhile, whichever system calls fail and however the two threads interleave, arx create ends with success or an error message, not with a panic.", "quantifier": "all accepted command lines, source trees (also changing ones), failing calls and thread interleavings", "why_tests_cant": "crash freedom over all trees, names and failures", "anchors": ["arx/src/create.rs: create, check_output_path_writable", "libarx/src/create/entry_store_creator.rs: add_entry", "libarx/src/create/fs_adder.rs: FsAdder"]}
{"id": "C79", "title": "What was archived is what every reader shows", "statement": "Let arx create (with input files, or with a file list) write an archive of a source that does not change meanwhile, with any options and any interleaving of its threads, and let arx mount mount it, or one directory of it. A program that copies the mount as cp -r does, whatever other programs request in between, gets exactly the source entries that were asked for: every directory, every file with its bytes and every link with its target, files and links also with their size, owner, group, permissions (without the write bits) and the second of their modification; and nothing else but the directories above them. Directories have the owner, group, permissions and second of the source directory too, of the first input that makes an entry there; directories above it that were not asked for belong to 1000:1000, have the permissions 0555 and the time 0. When the whole archive is mounted, arx list, arx list --stable-output 1, get_entry, get_content and get_target of the Python module and arx dump show the same. (For inputs without .., and sources with times from 1970 on, 32 bit ids and names of at most 255 bytes.)", "quantifier": "all sources, inputs and lists, options of both commands, thread interleavings, table layouts, copying programs and requests of others", "why_tests_cant": "composition of the whole pipeline: source tree, walk, table, mount protocol and all readers", "anchors": ["arx/src/create.rs: create", "arx/src/mount.rs: mount", "libarx/src/arx_fs.rs: ArxFs", "arx/src/list.rs: list", "arx/src/dump.rs: dump", "python/src/arx.rs: get_entry"]}
{"id": "C80", "title": "What a Python program adds is archived, or it is told", "statement": "A Python program makes an archive: with Creator(out) as c: c.add(path, recursive) for any paths, on a source that does not change meanwhile, with any interleaving of the threads. Whatever calls raise exceptions, the archive written at the end holds everything that the calls without exception stand for (what the path leads to, with its metadata and content, and all that is below if recursive), and nothing but what the calls stand for, and the directories above. No call raises exactly if every path is relative, exists, is UTF-8 and ends in a name, with UTF-8 names below, and no two calls clash. No call crashes. What was archived is what the mount, list, dump and the Python reader show, and what arx extract brings back.", "quantifier": "all sources, paths, numbers of calls, thread interleavings, results of the calls, layouts and readers", "why_tests_cant": "quantifies over histories of calls and over the schedules of two threads per call, on all source trees", "anchors": ["python/src/creator.rs: add", "python/src/creator.rs: __exit__", "libarx/src/create/fs_adder.rs: add_from_path_with_filter"]}
{"id": "C81", "title": "Readers show the members of a converted archive", "statement": "Convert a tar archive with tar2arx or a zip archive with zip2arx and mount the result, or a directory of it. Any program that copies the mount, whatever other programs ask in between, gets every member once, at its path, with its kind, its data or link target, its size and its owner, group, permission bits (without those for writing) and modification time (a directory: if no earlier member is at or below its path), and nothing else except the directories on the way to a member. If the whole archive is mounted, arx list, arx dump and the Python reader show the same as the mount. (Members without .. whose attributes can be represented; for zip, members whose recorded size is that of their data.)", "quantifier": "all tar and zip archives that are converted, layouts, mounted directories, requests of other programs, buffer and chunk sizes", "why_tests_cant": "quantifies over all archives, all copying programs and all interleavings with requests of other programs", "anchors": ["tar2arx/src/main.rs: TarEntry", "zip2arx/src/main.rs: ZipEntry", "libarx/src/arx_fs.rs: lookup"]}
{"id": "C82", "title": "arx create is reproducible", "statement": "Run the same arx create command twice in the same directory on a source that does not change, so that each run writes an archive: whatever the order in which the system lists directories, however the walking and the adding thread are interleaved and whatever admissible numbering the finalization ends with, both archives have the same rows in the same order with the same values, except for the numbers of the contents, which lead to the same bytes; arx list prints the same bytes for both, with and without --stable-output. Also whether the command succeeds, fails or crashes does not depend on listing order and interleaving. Even if the source changes during the run and calls fail, the interleaving alone changes nothing in what the command does.", "quantifier": "all commands, sources, listing orders, thread schedules, numberings, changes of the source", "why_tests_cant": "quantifies over all sources, listing orders and schedules; a test sees a few of each", "anchors": ["libarx/src/create/fs_adder.rs: add_from_path", "arx/src/create.rs: create", "libarx/src/create/entry_store_creator.rs: finalize"]}
{"id": "C83", "title": "Equivalent commands create the same archive", "statement": "On a source that does not change, commands that ask for the same thing in different words create the same archive. (1) Giving arx create some input files (that are no symbolic links), or a file list holding what find prints for them (find for recursive adding, the bare names otherwise; parents before children, otherwise in any order), with the same strip prefix: both commands succeed in the same cases, and the two archives have the same rows in the same order with the same values, except for the numbers of the contents, which lead to the same bytes; arx list prints the same bytes for both, with and without --stable-output. (2) Giving -C d and names relative to d, or --strip-prefix d and the names d/f, for a relative d without '.' components, as input files or as a file list: if both commands write an archive, the archives are the same in the same sense, also if symbolic links are on the way to d or to the inputs.", "quantifier": "all sources, sets of inputs, prefixes, listing orders, thread schedules and numberings", "why_tests_cant": "relates two runs of different commands over all sources and schedules; a test compares a few pairs", "anchors": ["arx/src/create.rs: create", "libarx/src/create/fs_adder.rs: add_from_path", "libarx/src/create/fs_adder.rs: add_from_list"]}
{"id": "C84", "title": "Extracting a part gives a part of the whole", "statement": "Extract a whole archive to one empty or missing directory, and a part of it (with --root-dir d, or a selection of paths with or without recursion, or both, in one run or several) to another, without failing calls. Then the second directory has at p something exactly if the first has something at d/p that a selection asks for, and it is the same: a directory, a file with the same bytes, or a link with the same target.", "quantifier": "all archives that can be extracted, all directories d, selections, overwrite modes, writer schedules and targets", "why_tests_cant": "relates two runs over all archives, selections and schedules; a test compares a few", "anchors": ["libarx/src/tools.rs: extract_arx_range", "libarx/src/tools.rs: extract_arx", "arx/src/extract.rs: extract"]}
{"id": "C85", "title": "Mount statistics", "statement": "Whatever the kernel asks a mounted archive during a session, the statistics arx mount logs at the end give for each of the nine kinds of request exactly the number of such requests, and keeping the statistics changes no answer.", "quantifier": "all archives and all histories of requests", "why_tests_cant": "holds for every history of requests; a test tries a few", "anchors": ["arx/src/mount.rs: StatCounter", "libarx/src/arx_fs.rs: Stats"]}
{"id": "C86", "title": "The listing tells archives apart", "statement": "Two created archives have the same arx list output exactly when they have the same paths, and the same arx list --stable-output 1 output exactly when moreover at each path the kind, the modification time, the size (files) and the target (links) are the same: a script that compares or parses the stable output loses nothing.", "quantifier": "all pairs of archives created by any histories of adds", "why_tests_cant": "ranges over all pairs of archives and all names; a test compares a few listings", "anchors": ["arx/src/list.rs: StableLister", "arx/src/list.rs: list"]}
{"id": "C87", "title": "Python entries are the entries of the archive", "statement": "Whatever way a Python program gets an entry of an archive (get_entry, iterating the archive or a directory, parent of another entry), it shows the values stored for the path it was got by; parent gives the entry of the path above, nothing at top level; two entries compare equal exactly if they are the same entry. Every entry can be got by iterating; the indices are 0, 1, ... each once, those of the children of a directory consecutive from first_child; archive.get_content(entry.get_content_address()) reads what entry.get_content() reads.", "quantifier": "every archive made by the creator, every chain of calls by which entries are got", "why_tests_cant": "all archives and all chains of iteration and parent steps", "anchors": ["python/src/entry.rs: Entry", "python/src/iterator.rs: EntryIter", "python/src/arx.rs: Arx.get_entry, Arx.get_content"]}
{"id": "C88", "title": "A converter reports what is wrong with its input", "statement": "Whatever the input of tar2arx or zip2arx is (not an archive, truncated, with members of any path, type, time or metadata, in any order), the command ends by success or by an error; it does not crash.", "quantifier": "all inputs, all sequences of members, all command line names", "why_tests_cant": "the inputs that crash are rare combinations of members, and whether one crashes depends on those before it", "anchors": ["tar2arx/src/main.rs: main, TarEntry::new, Converter::run", "zip2arx/src/main.rs: main, ZipEntry::new, Converter::run", "libarx/src/create/entry_store_creator.rs: add_entry"]}
{"id": "C89", "title": "Extraction stays in the output directory", "statement": "Extracting an archive that arx create, the Python module, tar2arx or zip2arx has made, as a whole or in part, into a directory that is safe for untrusted data (for instance an empty one: without symbolic links, nor hard links to files elsewhere) changes nothing outside of that directory (except that the directory itself and those leading to it may be created), whatever the paths and link targets in the archive are, whichever system calls fail and however the threads are scheduled.", "quantifier": "all inputs of create and of the converters, all extract options, all file systems with such a directory, all failures and interleavings of the writer threads", "why_tests_cant": "whether an entry escapes depends on all names of its path and on links extracted before it; tests try a few known bad archives", "anchors": ["libarx/src/tools.rs: extract_arx_range, Extractor", "arx/src/extract.rs: extract", "zip2arx/src/main.rs: ZipEntry::new", "tar2arx/src/main.rs: TarEntry::new", "libarx/src/create/fs_adder.rs: add_from_path"]}
{"id": "C90", "title": "The commands end", "statement": "Adding a path with arx create or FsAdder, and extracting, always come to an end: if every thread is given processor time again and again (and the operating system does not answer for ever that it wrote zero bytes), then add_from_path returns and its walking thread ends, so that create reports its result; and every writer of an extraction ends, so that extract reports its result. This is so whatever is archived or extracted and whichever calls fail, and for adding the outcome does not depend on the order in which the threads run. The recursion of an extraction of a created archive is never deeper than the archive has entries.", "quantifier": "all infinite fair schedules of the threads, all sources, archives, options, file systems and failures", "why_tests_cant": "a deadlock or an endless loop shows only under particular interleavings and failures, and a test that hangs has no result", "anchors": ["libarx/src/create/fs_adder.rs: add_from_path, add_from_path_with_filter", "libarx/src/tools.rs: extract_arx_range, Extractor::on_file", "arx/src/create.rs: create", "arx/src/extract.rs: extract"]}
{"id": "C91", "title": "The same items, the same archive", "statement": "Which archive is made depends only on the items that are packed, not on the tool, the order or the spelling: two inputs, each a tar archive, a zip archive, or a source given to arx create as one input or to a Python program as its one add (which is not a special file), that have the same items (path without dots and doubled separators, owner, group, mode, time, and what it is with its bytes or target) are made into archives that are the same row by row, but for the numbers of contents, which lead to the same bytes, and that are listed alike. Extension members, formats of headers and the order of members do not matter, as long as each directory is before what it contains. Whether a conversion succeeds does not depend on the order of the members at all.", "quantifier": "all tar and zip archives, sources, orders of members, orders in which directories are listed, and schedules", "why_tests_cant": "it compares the results of different programs over all inputs", "anchors": ["tar2arx/src/main.rs: Converter::run", "zip2arx/src/main.rs: Converter::run", "arx/src/create.rs: create", "libarx/src/create/creator.rs: add_entry", "libarx/src/create/entry_store_creator.rs: add_entry"]}
{"id": "C92", "title": "Names, order, text and numbers", "statement": "What the other properties take for granted: every path text spells exactly one list of names (separators in front, behind and doubled do not count) and a path that is written is read back as the same names; names are ordered bytewise, a proper prefix first; bytes are accepted as text exactly if they are encodings of Unicode characters; whatever bytes are shown, characters are shown as they are and each longest piece that begins no or only an incomplete character is shown as one replacement character, so that what is shown is text; times, sizes and counts are printed as decimal digits that read as the number.", "quantifier": "all byte strings, all paths and all numbers", "why_tests_cant": "the inputs are unbounded, and the words in which properties are stated cannot be tested by the properties themselves", "anchors": ["libarx/src/common/mod.rs: Path, PathBuf, EntryCompare::compare_entry", "arx/src/light_path.rs: LightPath", "arx/src/list.rs: StableLister", "arx/src/mount.rs: StatCounter"]}
{"id": "C93", "title": "A Python program makes the archive that arx create makes", "statement": "On a source that does not change: a Python program (with Creator(out) as c: c.add(path, recursive), for any paths) that is run twice in the same directory raises in both runs or in none, and without exceptions makes the same archive twice: the same rows in the same order with the same values, except for the numbers of contents, which lead to the same bytes; listed alike. If its calls name the input files of an arx create command run in the same directory without --strip-prefix, in the same order and with the same recursion, it makes the same archive as the command; and the command succeeds exactly if its output can be written, every input exists and the program raises nothing. All this for every order in which directories are listed, every interleaving of the threads and every numbering. The archive is a function of the source and the calls: at each path there is what the first call stands for that makes an entry there.", "quantifier": "all sources, programs, commands, listing orders, interleavings and numberings", "why_tests_cant": "it compares the results of different programs over all sources and schedules", "anchors": ["python/src/creator.rs: Creator::add, __exit__", "arx/src/create.rs: create", "libarx/src/create/fs_adder.rs: add_from_path"]}
{"id": "C94", "title": "A command line means what is written", "statement": "For every build and every list of words: arx runs a subcommand exactly if the words are the subcommand, possibly after -v, followed by a line written with its arguments (short options alone or in groups, with the value attached, after an equals sign or in the next word; long options; words; everything after -- as words), each given at most once, with values of their kind; the options are then the ones given, with the defaults of the help for the others, and meet the conditions in the help (for instance --recurse and --no-recurse exclude each other, an output is required unless compressions are listed). The order of the arguments does not matter. Help is printed exactly if it is asked for before anything is wrong. Every other line does nothing and ends with status 2. Conversely every combination of options that meets the conditions can be given. The same for tar2arx, zip2arx, mount.fuse.arx and auto-mount.", "quantifier": "all builds, all lists of words, all combinations of options", "why_tests_cant": "the command lines are infinitely many, and a wrong grammar shows only on some of them", "anchors": ["arx/src/main.rs: Cli", "arx/src/create.rs: Options", "arx/src/list.rs: Options", "arx/src/dump.rs: Options", "arx/src/extract.rs: Options", "arx/src/mount.rs: Options", "tar2arx/src/main.rs: Cli", "zip2arx/src/main.rs: Cli", "libarx/src/cmd_utils.rs: compression_arg_parser, ConcatMode"]}
{"id": "C95", "title": "The command lines of the README do what it says", "statement": "The examples in the README, for any names: arx create -o A -r D stores D and all that is below; without -r it is not recursive; with --strip-prefix a common prefix of the paths is removed; arx extract A -C O brings the directory back; arx list A prints one line per entry; arx list --stable-output A prints them in a stable form; arx dump A f writes the content of f to standard output, arx dump A f F to the file F; arx mount A M shows the content at M; tar2arx -o A T and zip2arx -o A T convert T.", "quantifier": "all names, sources, builds, environments and interleavings", "why_tests_cant": "it composes two programs over all sources and schedules", "anchors": ["README.md: Usage Examples", "arx/src/main.rs: main", "arx/src/create.rs: create", "arx/src/list.rs: list", "arx/src/dump.rs: dump"]}
{"id": "C96", "title": "The output of arx list is a file list", "statement": "If no name contains a newline and no path ends in a carriage return, the lines arx list prints are the paths of the archive, each once. Keep some of these lines (at least one), in any order, and give them to arx extract -L, to an empty or missing directory, no call failing: the extraction succeeds, and extracted is exactly the entries of these lines and the directories on the way to them; the whole listing extracts the whole archive. Give them to arx create -L in a directory that holds the entries: it succeeds if the output can be written, and the new archive has exactly these entries and the directories on the way, with the same kinds, contents and targets. A file or link whose path contains a newline cannot be extracted with a file list at all.", "quantifier": "all archives, all choices of lines, overwrite modes, schedules of the writers", "why_tests_cant": "it relates the printer of one command to the parser of another for all names", "anchors": ["arx/src/list.rs: list, Lister", "arx/src/extract.rs: extract, get_files_to_extract", "arx/src/create.rs: create", "libarx/src/tools.rs: extract_arx"]}
{"id": "C97", "title": "Extracting a new version over an old one", "statement": "An archive (or parts of it, in several runs) was extracted to an empty or missing directory, no call failing. Another archive, or a part of it, is then extracted to the same directory, and no link of the first is where the second has a file or directory. With overwrite, no call failing, this succeeds exactly if every extracted entry can take the place of what the first left there: a directory of a directory, a file of a file, a link of a file or link. In every mode, if it succeeds: what is only in the second archive was added; what is in both is as in the second archive if the mode replaces it (always with overwrite; with newer, if the archived time is not before the time of the file on disk, which is that of the first extraction), and otherwise exactly as before; what is only in the first archive is as it was; there is nothing else, and nothing outside of the directory changed.", "quantifier": "all pairs of archives, selections, overwrite modes, numbers of earlier runs, schedules of the writers", "why_tests_cant": "it is about all pairs of archives and all histories of runs", "anchors": ["libarx/src/tools.rs: extract_arx, extract_arx_range, Extractor", "arx/src/extract.rs: extract"]}
{"id": "C98", "title": "The programs of the Python README do what they say", "statement": "A Python program makes an archive by add calls in a with block, with or without an exception of its own afterwards, none of the calls raising; the paths have no .. and no NUL. Then the programs of the README work on this archive: the loop over the entries prints, each once and parents before children, every entry that was archived and nothing else, with its path, and for a file its size and the first bytes of the source file, for a directory its number of children, for a link its target, and ends without an exception; get_entry of a path given to add that leads to a regular file gives an entry whose content is that of the source file and whose path is its name, and parent, again and again, gives the names of the directories above and in the end None; extract to an empty or missing directory, no call failing, makes there what was added, and nothing else.", "quantifier": "all sources, lists of add calls, paths, extraction directories and schedules of the writers", "why_tests_cant": "it is about all sources and programs", "anchors": ["python/README.md", "python/src/arx.rs: Arx", "python/src/entry.rs: Entry", "python/src/iterator.rs: EntryIter", "python/src/stream.rs: Stream", "python/src/creator.rs: Creator"]}
{"id": "C99", "title": "The command lines of the converters' READMEs do what they say", "statement": "tar2arx -o A T and zip2arx -o A T, for any names of files (and, tar, URLs), end with status 0 exactly if T can be read, every member is valid, no two are in conflict and A can be written; then an archive was written to A, and this was the last thing done. Of this archive, arx list A prints one line for every member and every directory on the way to one, each once, and nothing else; arx dump A f writes the data of the member f if it is a file, and otherwise nothing, with status 1; arx extract A -C O to an empty or missing directory, no call failing, ends with status 0 and makes the tree of the members there; arx mount A M ends with status 0 and shows the members, their data and attributes to any program that copies the mount. A line that does not ask to convert does nothing, with status 0 if it asks for help, the version, the compressions, a man page or completions, and 2 otherwise. (The reader of a pipe may go away; names such that a file system takes them.)", "quantifier": "all names, members, layouts, builds with zstd, environments and interleavings", "why_tests_cant": "it is about all archives and names", "anchors": ["tar2arx/README.md", "zip2arx/README.md", "tar2arx/src/main.rs: main", "zip2arx/src/main.rs: main", "arx/src/main.rs: main"]}
{"id": "C100", "title": "An archive can be migrated by mounting it and archiving the mount", "statement": "If an archive (or a directory of it) is mounted and arx create archives the mount recursively, then the tree can be archived (its names being UTF-8), and the new archive holds, under the path the mount point is stored at, exactly what was mounted: the same paths, kinds, link targets, sizes, contents and modification times, owners and groups as numbers of 32 bits, and the rights without the rights to write; these are always lost, the rest of a mode taken from a file system is kept, and migrating again changes nothing more. With the mount point as prefix to strip, arx list prints the same for both archives, with and without --stable-output.", "quantifier": "all archives, mounted directories, requests of other programs, options, orders of listing, interleavings and layouts; a kernel that passes on what the mount answers", "why_tests_cant": "it is about all archives and histories", "anchors": ["Changelog.md", "libarx/src/arx_fs.rs: ArxFs", "libarx/src/create/fs_adder.rs: FsAdder::add_from_path", "arx/src/create.rs: create", "arx/src/mount.rs: mount"]}
{"id": "C101", "title": "The archive is packed as asked", "statement": "The compression (algorithm and level, zstd at its default level if none is said) and the number of files (one, two or many, one if none is said) on the command line of arx create, tar2arx and zip2arx are those the archive is packed with. A run packs at most one archive, only if a creation or conversion is asked for, and an archive that is written was packed as the command line says.", "quantifier": "all builds, command lines and systems", "why_tests_cant": "it is about all command lines", "anchors": ["arx/src/create.rs: create", "tar2arx/src/main.rs: Converter::new", "zip2arx/src/main.rs: Converter::new", "libarx/src/create/creator.rs: SimpleCreator::new"]}
{"id": "C102", "title": "A mount uses bounded memory", "statement": "Whatever is asked of a mounted archive and however long the session, the mount remembers at most 4096 answers to lookups and the attributes of at most 100 entries, each once, and it holds the content of exactly the files that were opened more often than released (once per file, however often it is open); when every file has been released as often as it was opened, it holds none.", "quantifier": "all archives, also those not made by the creator, and all histories of requests", "why_tests_cant": "it is about all histories", "anchors": ["libarx/src/arx_fs.rs: ArxFs::new_with_stats, lookup, getattr, open, release, readdir"]}
{"id": "C103", "title": "An entry is found by reading few rows", "statement": "However large the archive, an entry is found without reading the whole table: a name in a directory of n entries is determined by at most log2(n) + 1 rows of the table, a path by at most log2(n) + 2 rows for each of its names if no directory has more than n children, and a request to the mount by the row of the inode and those of a search (a lookup), one row (attributes, link, open), none (read, release), or as many rows as entries fit in the page plus two (readdir): archives that agree on these rows give the same answer, whatever else they contain.", "quantifier": "all archives, also those not made by the creator, names, paths, states of the mount and requests", "why_tests_cant": "it is about all archives and sizes", "anchors": ["libarx/src/common/mod.rs: EntryCompare, Comparator", "libarx/src/arx.rs: Arx::get_entry", "libarx/src/arx_fs.rs: ArxFs"]}
{"id": "C104", "title": "A missing content pack affects only its files", "statement": "Where content packs of an archive are missing, everything else works. Extracted to an empty or missing directory, in any number of runs with any selections and overwrite modes, perhaps other packs missing each time: every run succeeds (in mode error, unless a file or link it could create is there already; in mode newer, for archived times below 2^63), and then exactly those of the entries asked for are there that one of the runs could read, complete; nothing is created for the others. Once all packs are there, extracting everything again in a mode other than error gives the whole archive. What dump of a file does depends only on the content of that file; what a mount answers depends only on the contents of the files that are opened.", "quantifier": "every add history whose entries have names and links that a file system can have, every set of missing packs, every selection, mode, writer schedule, request history", "why_tests_cant": "it is about all sequences of runs, sets of missing packs and interleavings", "anchors": ["libarx/src/tools.rs: extract_arx_range, Extractor", "arx/src/dump.rs: dump_entry", "libarx/src/arx_fs.rs: ArxFs::open"]}
{"id": "C105", "title": "Inode numbers are stable", "statement": "In two mounts of archives with the same content, even if these were created by different histories of adds, different directories of them are mounted, other content packs are missing and different requests were answered before: each inode number from 2 up stands for the same entry; lookup, getattr, readlink, opendir and readdir give the same answers about it; a path leads to the same number and attributes; and where both mounts give bytes of a file, at the same place, these are the same.", "quantifier": "all pairs of add histories with the same resulting path map, all mounted directories, all request histories before", "why_tests_cant": "it is about all pairs of request histories, cache states and archives", "anchors": ["libarx/src/arx_fs.rs: Ino", "libarx/src/arx_fs.rs: ArxFs::lookup", "libarx/src/create/entry_store_creator.rs: EntryStoreCreator, finalize"]}
{"id": "C106", "title": "Contents that cannot be read", "statement": "If reading a content fails (a damaged cluster, a failing device), nobody gets anything else for it: a Python read returns the bytes at the position tell() told, as many as asked for or as there are, or it raises, and tell() + size_left() == size() afterwards too; arx dump delivers a prefix of the content and reports an error if a read failed before everything was read; a read of a mounted file gives the bytes or an error.", "quantifier": "all contents, all sequences of reads, all behaviours of every call that reads the content (failing at any moment, giving less than asked for, interrupted), all behaviours of standard output", "why_tests_cant": "a fault can happen at every call", "anchors": ["python/src/stream.rs: Stream::read", "arx/src/dump.rs: dump_entry", "libarx/src/arx_fs.rs: ArxFs::read"]}
