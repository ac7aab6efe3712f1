P, Q = 'proved', 'partial'
STATUS = {
 'C01': (P, ''), 'C02': (P, ''), 'C03': (P, ''), 'C04': (P, ''),
 'C05': (P, 'a debug build on either side needs copies not exactly 2^63 away from the last address (C04)'),
 'C06': (P, ''), 'C07': (P, ''), 'C08': (P, ''),
 'C09': (P, 'the stronger claim for debug builds is refuted with four witnesses (C09_never_panics_false)'),
 'C10': (P, ''), 'C11': (P, ''), 'C12': (P, ''), 'C13': (P, ''), 'C14': (P, ''),
 'C15': (P, ''),
 'C16': (P, ''), 'C17': (P, ''), 'C18': (P, ''), 'C19': (P, ''),
 'C20': (P, ''), 'C21': (P, ''), 'C22': (P, ''),
 'C23': (P, ''),
 'C24': (P, ''), 'C25': (P, ''), 'C26': (P, 'with zstd/brotli sections: given libraries that decompress from left to right (Framed)'),
 'C27': (P, 'inputs shorter than 2^63 bytes, as every Rust slice'), 'C28': (P, 'zstd/brotli: given libraries that give back what was compressed (Faithful), non-empty targets; the empty target is C77'),
 'C31': (P, ''), 'C32': (P, ''), 'C33': (P, ''), 'C34': (P, ''), 'C35': (P, ''), 'C36': (P, ''), 'C58': (P, ''),
 'C59': (P, ''),
 'C60': (P, ''),
 'C61': (P, ''),
 'C62': (P, ''),
 'C63': (P, ''), 'C64': (P, 'zstd and brotli: given libraries that give back what was compressed (Faithful), non-empty files'),
 'C51': (P, 'zstd and brotli under the assumption CompWorks (Faithful libraries, non-empty file)'), 'C52': (P, ''), 'C53': (P, ''),
 'C54': (P, 'the VCDIFF parser (an external crate) is represented by the messages it delivers; that it classifies copies correctly is part of well-formedness'), 'C55': (P, 'as C54'),
 'C29': (P, ''), 'C30': (P, ''), 'C37': (P, ''), 'C38': (P, ''), 'C39': (P, ''), 'C40': (P, ''), 'C56': (P, ''), 'C57': (P, ''),
 'C41': (P, ''), 'C42': (P, 'copies within the 64-bit address space'), 'C43': (P, 'dictionaries shorter than 2^63 bytes'),
 'C44': (P, 'patches without zero-length operations (C47_empty_copy_panics shows why); files shorter than 2^63 bytes'),
 'C45': (P, 'as C44'), 'C46': (P, ''), 'C47': (P, ''), 'C48': (P, 'as C44'), 'C49': (P, ''), 'C50': (P, ''),
 'C65': (P, 'files shorter than 2^63 bytes; zstd and brotli under the assumption CompWorks'), 'C66': (P, 'as C65'),
 'C67': (P, ''), 'C68': (P, ''), 'C69': (P, 'as C51, C48, C54'), 'C70': (P, ''),
 'C71': (P, 'target or its prefix only; general common prefixes are not claimed'),
 'C74': (P, ''), 'C75': (P, ''), 'C76': (P, 'files shorter than 2^63 bytes; for zstd and brotli only the count of sections'),
 'C79': (P, ''), 'C72': (P, ''), 'C77': (P, ''), 'C78': (P, ''), 'C73': (P, 'libraries: assumption Framed (and Faithful for encode)'),
 'C80': (P, ''),
 'C81': (P, 'A common beginning shorter than lazy_escape_len is covered by C76 (13 bytes for each byte of the target).'),
 'C82': (P, 'Compressed sections: the libraries are parameters (CodecOn) that are assumed to depend only on the bytes of the source (Follow).'),
 'C83': (P, ''),
 'C84': (P, 'zstd and brotli: their output is written in one piece; that is no restriction here, because nothing depends on the pieces.'),
 'C85': (P, ''),
 'C86': (P, 'the bytes of adds (at most 65535 for one operation), decompressed data and the libraries are not limited'),
 'C87': (P, 'first part: also compressed patches; cut-off patches: sections without compression'),
 'C88': (P, ''),
 'C89': (P, ''),
 'C90': (P, ''),
 'C91': (P, ''),
 'C92': (P, ''),
 'C93': (P, 'sources larger than the window, for which the table is refilled while the search goes on, are covered by C95 (and C57)'),
 'C94': (P, 'searches that begin behind the first byte, after a naive match at the start, are covered by C37-C40, C56 only'),
 'C95': (P, 'products of the lengths of 2^64 and more (a debug panic, see C29) are left out'),
 'C96': (P, 'the margins 6 and 44 are what the filter of the op maker may cut; not shown to be the smallest'),
 'C97': (P, 'sources larger than the window are left out'),
 'C98': (P, 'the margins 6 and 44 are those of C96'),
 'C99': (P, ''),
 'C100': (P, ''),
 'C101': (P, ''),
 'C102': (P, ''),
 'C103': (P, ''),
 'C104': (P, ''),
 'C105': (P, ''),
 'C106': (P, ''),
 'C107': (P, ''),
 'C108': (P, ''),
 'C109': (P, ''),
 'C110': (P, ''),
 'C111': (P, ''),
 'C112': (P, ''),
 'C113': (P, 'Fails with long runs: `C113_runs_break`.'),
 'C114': (P, 'Source fits into the window; l_step of at least 9 for what is lost.'),
 'C115': (P, 'Cuts behind later sections and selections: uncompressed patches, and patches written by encode with a faithful library (of other compressed patches, only the first section: a library may look ahead).'),
 'C116': (P, ''),
 'C117': (P, "The byte bound is for patches without secondary compression, ours and the rival's."),
}
