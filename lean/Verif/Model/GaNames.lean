import Verif.Model.Preset

/-!
# The names of galgebra/ga.py and galgebra/metric.py

Collected from the source files: attributes assigned in the class bodies of `Ga` and `Metric` or through `self`, names bound
at the top level of the modules, and Python's built-in names.
-/

namespace GA

/-- ga.py:446-2201 `Ga`, metric.py:320-end `Metric`: class and instance attributes. -/
def gaAttrs : List String :=
  ["Christoffel_symbols", "E", "I", "Isq", "Mlt", "Mul", "Pdiffs", "Pdop_identity", "ReciprocalFrame", "X", "_XOX",
   "__eq__", "__hash__", "__init__", "__str__", "_agrads", "_build_basis_base_symbol", "_build_basis_blade_symbol",
   "_build_connection", "_build_grads", "_build_metric_element", "_dbases", "_dot_product_method", "_mlt_a",
   "_mlt_acoefs", "_mlt_pdiffs", "_print_basis_and_blade_debug", "_reciprocal_blade_dict",
   "_reciprocal_of_basis_blade", "_update_de_from_rbasis", "base_expansion", "base_expansion_dict",
   "base_to_blade_rep", "bases", "bases_dict", "bases_lst", "bases_to_grades_dict", "bases_to_indexes",
   "bases_to_indexes_dict", "basic_mul", "basic_mul_keys", "basic_mul_table", "basic_mul_table_dict",
   "basic_mul_values", "basis", "basis_super_scripts", "basis_vectors", "blade_derivation", "blade_expansion",
   "blade_expansion_dict", "blade_reduce", "blade_super_scripts", "blade_to_base_rep", "blades", "blades_lst",
   "blades_to_grades_dict", "blades_to_indexes", "blades_to_indexes_dict", "build", "com", "connect", "connect_flg",
   "connection", "coord_vec", "coords", "count", "de", "debug", "derivatives_of_g", "detg", "dg", "dop", "dot",
   "dot_mode", "dot_orthogonal", "dot_product_basis_blades", "dot_table_dict", "dslot", "dual_mode", "dual_mode_lst",
   "dual_mode_value", "e", "e_norm", "e_sq", "e_sq_sgn", "er_blade", "even_odd", "g", "g_adj", "g_inv",
   "g_is_numeric", "g_raw", "geometric_product_basis_blades", "get_grade", "grad", "grad_sqr", "grade_decomposition",
   "grades", "grads", "gsym", "hestenes_dot", "i", "i_inv", "indexes", "indexes_lst", "indexes_to_bases",
   "indexes_to_bases_dict", "indexes_to_blades", "indexes_to_blades_dict", "inverse_metric", "is_ortho",
   "left_contract", "left_contract_table_dict", "lt", "lt_coords", "lt_x", "make_grad", "metric_symbols_list", "mul",
   "mul_table_dict", "mv", "mv_I", "mv_basis", "mv_blades", "mv_x", "mvr", "n", "n_range", "name",
   "non_orthogonal_bases_products", "non_orthogonal_dot_product_basis_blades", "norm", "normalize_metric", "pDiff",
   "par_coords", "parametric", "pdop", "preset", "presets", "r_basis", "r_basis_dict", "r_basis_mv", "r_symbols",
   "reduce_basis", "reduce_basis_loop", "remove_scalar_part", "reverse", "rgrad", "right_contract",
   "right_contract_table_dict", "sPds", "scalar_part", "scalar_product", "sdop", "sig", "signature", "sing_flg",
   "sm", "split_multivector", "wedge", "wedge_print", "wedge_product_basis_blades", "wedge_table_dict"]

/-- ga.py: the names bound at the top level. -/
def gaGlobals : List String :=
  ["warnings", "operator", "copy", "combinations", "reduce", "Tuple", "TypeVar", "Callable", "Dict", "Sequence",
   "List", "Optional", "Union", "OrderedDict", "diff", "Symbol", "S", "Mul", "Add", "Expr", "expand", "simplify",
   "eye", "trigsimp", "symbols", "sqrt", "Matrix", "printer", "metric", "mv", "dop", "lt", "BasisBaseSymbol",
   "BasisBladeSymbol", "BasisBladeNoWedgeSymbol", "_cached_property", "one", "zero", "half", "_mv", "_dop", "_lt",
   "_MaybeMv", "is_bases_product", "_K", "_V", "lazy_dict", "update_and_substitute", "nc_subs", "_T", "_U",
   "GradedTuple", "OrderedBiMap", "ProductFunction", "BladeProductFunction", "_SingleGradeProductFunction",
   "_HestenesDotFunction", "_ScalarProductFunction", "_LeftContractFunction", "_RightContractFunction",
   "_WedgeProductFunction", "_GeometricProductFunction", "BaseProductFunction", "_BaseGeometricProductFunction",
   "Ga", "Sm"]

/-- metric.py: the names bound at the top level. -/
def metricGlobals : List String :=
  ["copy", "warnings", "List", "Optional", "diff", "trigsimp", "Matrix", "Rational", "sqf_list", "sqrt", "eye", "S",
   "expand", "Mul", "Add", "simplify", "Expr", "Abs", "Function", "MatrixSymbol", "printer", "_cached_property",
   "BasisVectorSymbol", "DotProductSymbol", "MatrixFunction", "Determinant", "apply_function_list", "linear_expand",
   "linear_expand_terms", "collect", "abs_with_hint", "square_root_of_expr", "symbols_list", "Simp", "Metric"]

/-- The built-in names of Python. -/
def builtinNames : List String :=
  ["ArithmeticError", "AssertionError", "AttributeError", "BaseException", "BaseExceptionGroup", "BlockingIOError",
   "BrokenPipeError", "BufferError", "BytesWarning", "ChildProcessError", "ConnectionAbortedError",
   "ConnectionError", "ConnectionRefusedError", "ConnectionResetError", "DeprecationWarning", "EOFError", "Ellipsis",
   "EncodingWarning", "EnvironmentError", "Exception", "ExceptionGroup", "False", "FileExistsError",
   "FileNotFoundError", "FloatingPointError", "FutureWarning", "GeneratorExit", "IOError", "ImportError",
   "ImportWarning", "IndentationError", "IndexError", "InterruptedError", "IsADirectoryError", "KeyError",
   "KeyboardInterrupt", "LookupError", "MemoryError", "ModuleNotFoundError", "NameError", "None",
   "NotADirectoryError", "NotImplemented", "NotImplementedError", "OSError", "OverflowError",
   "PendingDeprecationWarning", "PermissionError", "ProcessLookupError", "RecursionError", "ReferenceError",
   "ResourceWarning", "RuntimeError", "RuntimeWarning", "StopAsyncIteration", "StopIteration", "SyntaxError",
   "SyntaxWarning", "SystemError", "SystemExit", "TabError", "TimeoutError", "True", "TypeError",
   "UnboundLocalError", "UnicodeDecodeError", "UnicodeEncodeError", "UnicodeError", "UnicodeTranslateError",
   "UnicodeWarning", "UserWarning", "ValueError", "Warning", "ZeroDivisionError", "abs", "aiter", "all", "anext",
   "any", "ascii", "bin", "bool", "breakpoint", "bytearray", "bytes", "callable", "chr", "classmethod", "compile",
   "complex", "copyright", "credits", "delattr", "dict", "dir", "divmod", "enumerate", "eval", "exec", "exit",
   "filter", "float", "format", "frozenset", "getattr", "globals", "hasattr", "hash", "help", "hex", "id", "input",
   "int", "isinstance", "issubclass", "iter", "len", "license", "list", "locals", "map", "max", "memoryview", "min",
   "next", "object", "oct", "open", "ord", "pow", "print", "property", "quit", "range", "repr", "reversed", "round",
   "set", "setattr", "slice", "sorted", "staticmethod", "str", "sum", "super", "tuple", "type", "vars", "zip"]

/-- ga.py:655 `Ga.__init__`, metric.py:676-686 `Metric.__init__`: the keyword arguments. -/
def gaKeywords : List String := ["wedge", "g", "coords", "X", "norm", "debug", "gsym", "sig", "Isq"]

/-- The names of galgebra/ga.py. -/
def gaNames : Names :=
  ⟨gaAttrs.map String.toList, (gaGlobals ++ builtinNames).map String.toList, gaKeywords.map String.toList⟩

end GA
